import Verif.Crit.Model
import Verif.Vis.Trace
import Verif.Lock.WordsProps
import Mathlib.Data.List.Induction
/-!
# Critical sections: the locks in the combined executions, and who has writes in flight
-/
namespace Verif.Crit
open Verif.Rma Verif.Lock
open Verif.Vis (GI At Flies NoWriter)
open Verif.Order (Pend)

/-! ## Lock steps -/

theorem back_words (m : Mems) (w : Nat → Bytes) (t : Nat) (x : BitVec 64) : back m w t x.toInt = w t x := by
  unfold back
  have h1 := BitVec.le_toInt x
  have h2 := BitVec.toInt_lt (x := x)
  rw [if_pos ⟨by simpa using h1, by simpa using h2⟩, BitVec.ofInt_toInt]

theorem back_same {m : Mems} {w : Nat → Bytes} {k : Nat × Int} (h : ∀ x : BitVec 64, x.toInt = k.2 → w k.1 x = m k.1 k.2) :
    back m w k.1 k.2 = m k.1 k.2 := by
  unfold back
  split
  · rename_i hr
    apply h
    rw [BitVec.toInt_ofInt]
    apply Int.bmod_eq_of_le <;> simp <;> omega
  · rfl

theorem lock_words {x : X} {w : WState} : (⟨{ x.g with mem := back x.g.mem w.mem }, w.pc⟩ : X).words = w := by
  unfold X.words
  simp only [back_words]

/-- nothing but the memories changes for `Vis` in a lock step -/
theorem at_mem {g : Vis.G} {m : Mems} {a : Vis.Atom} {r : Nat} {own : Option Pend} : At { g with mem := m } a r own ↔ At g a r own :=
  Iff.rfl

theorem gi_mem {S : Vis.Sys} {g : Vis.G} {m : Mems} (h : GI S g) : GI S { g with mem := m } :=
  ⟨h.inv, h.ep, h.cov, h.lv, h.fly, h.pes, h.busy⟩

theorem nw_mem {g : Vis.G} {m : Mems} {k : Nat × Int} : NoWriter { g with mem := m } k ↔ NoWriter g k := Iff.rfl

/-- what a lock call does to the program counters -/
theorem wstep_pc {C : Cfg} {s s' : WState} {l p : Nat} {a : Act} {ev : List Lock.Ev} (h : wstep C s l p a = some (s', ev)) :
    (∀ l' p', ¬ (l' = l ∧ p' = p) → s'.pc l' p' = s.pc l' p') ∧
    (s.pc l p = .held → a = .callClear) ∧
    (s'.pc l p = .held → s.pc l p ≠ .held ∧ Lock.Ev.acquire p ∈ ev) ∧
    (∀ q, Lock.Ev.acquire q ∈ ev → q = p ∧ s'.pc l p = .held) := by
  have goto : ∀ (t : WState) (c : PC), (∀ l' p', t.pc l' p' = s.pc l' p') →
      (∀ l' p', ¬ (l' = l ∧ p' = p) → (t.goto l p c).pc l' p' = s.pc l' p') ∧ (t.goto l p c).pc l p = c := by
    intro t c ht
    constructor
    · intro l' p' hn
      unfold WState.goto upd
      dsimp only
      split
      · rename_i e
        subst e
        dsimp only
        split
        · rename_i e; exact absurd ⟨rfl, e⟩ hn
        · exact ht _ _
      · exact ht _ _
    · simp [WState.goto, upd]
  cases a with
  | callSet =>
    simp only [wstep] at h
    split at h
    · rename_i hc
      cases h
      obtain ⟨h1, h2⟩ := goto s .setReset (fun _ _ => rfl)
      refine ⟨h1, fun e => (by rw [hc.1] at e; cases e), fun e => (by rw [h2] at e; cases e), fun q hq => (by cases hq)⟩
    · cases h
  | callTest =>
    simp only [wstep] at h
    split at h
    · rename_i hc
      cases h
      obtain ⟨h1, h2⟩ := goto s .testCas (fun _ _ => rfl)
      refine ⟨h1, fun e => (by rw [hc.1] at e; cases e), fun e => (by rw [h2] at e; cases e), fun q hq => (by cases hq)⟩
    · cases h
  | callClear =>
    simp only [wstep] at h
    split at h
    · cases h
      obtain ⟨h1, h2⟩ := goto s .clrCas (fun _ _ => rfl)
      refine ⟨h1, fun _ => rfl, fun e => (by rw [h2] at e; cases e), fun q hq => (by simp at hq)⟩
    · cases h
  | run =>
    simp only [wstep] at h
    cases hd : C.lastDisp l p with
    | abort => rw [hd] at h; cases h
    | ub => rw [hd] at h; cases h
    | hang => rw [hd] at h; cases h
    | ok d =>
      rw [hd] at h
      dsimp only at h
      have stay : ∀ {t : WState} {c : PC} {ev' : List Lock.Ev}, some (t.goto l p c, ev') = some (s', ev) →
          (∀ l' p', t.pc l' p' = s.pc l' p') → s.pc l p ≠ .held → c ≠ .held → (∀ q, Lock.Ev.acquire q ∉ ev') →
          (∀ l' p', ¬ (l' = l ∧ p' = p) → s'.pc l' p' = s.pc l' p') ∧ (s.pc l p = .held → Act.run = .callClear) ∧
            (s'.pc l p = .held → s.pc l p ≠ .held ∧ Lock.Ev.acquire p ∈ ev) ∧
            (∀ q, Lock.Ev.acquire q ∈ ev → q = p ∧ s'.pc l p = .held) := by
        intro t c ev' e ht hn hc he
        cases e
        obtain ⟨h1, h2⟩ := goto t c ht
        exact ⟨h1, fun e => absurd e hn, fun e => absurd (h2 ▸ e) hc, fun q hq => absurd hq (he q)⟩
      have gets : ∀ {t : WState} {ev' : List Lock.Ev}, some (t.goto l p .held, ev') = some (s', ev) →
          (∀ l' p', t.pc l' p' = s.pc l' p') → s.pc l p ≠ .held → Lock.Ev.acquire p ∈ ev' → (∀ q, Lock.Ev.acquire q ∈ ev' → q = p) →
          (∀ l' p', ¬ (l' = l ∧ p' = p) → s'.pc l' p' = s.pc l' p') ∧ (s.pc l p = .held → Act.run = .callClear) ∧
            (s'.pc l p = .held → s.pc l p ≠ .held ∧ Lock.Ev.acquire p ∈ ev) ∧
            (∀ q, Lock.Ev.acquire q ∈ ev → q = p ∧ s'.pc l p = .held) := by
        intro t ev' e ht hn hm he
        cases e
        obtain ⟨h1, h2⟩ := goto t .held ht
        exact ⟨h1, fun e => absurd e hn, fun _ => ⟨hn, hm⟩, fun q hq => ⟨he q hq, h2⟩⟩
      have same : s.pc l p ≠ .held → some (s, ([] : List Lock.Ev)) = some (s', ev) →
          (∀ l' p', ¬ (l' = l ∧ p' = p) → s'.pc l' p' = s.pc l' p') ∧ (s.pc l p = .held → Act.run = .callClear) ∧
            (s'.pc l p = .held → s.pc l p ≠ .held ∧ Lock.Ev.acquire p ∈ ev) ∧
            (∀ q, Lock.Ev.acquire q ∈ ev → q = p ∧ s'.pc l p = .held) := by
        intro hn e
        cases e
        exact ⟨fun _ _ _ => rfl, fun e => absurd e hn, fun e => absurd e hn, fun q hq => (by cases hq)⟩
      cases hpc : s.pc l p with
      | idle => rw [hpc] at h; cases h
      | held => rw [hpc] at h; cases h
      | setReset =>
        simp only [hpc] at h
        rw [← hpc]; exact stay h (fun _ _ => rfl) (by rw [hpc]; decide) (by decide) (by simp)
      | setSwap =>
        simp only [hpc] at h
        rw [← hpc]
        split at h
        · exact stay h (fun _ _ => rfl) (by rw [hpc]; decide) (by simp) (by simp)
        · exact gets h (fun _ _ => rfl) (by rw [hpc]; decide) (by simp) (by simp)
      | setLink c =>
        simp only [hpc] at h
        rw [← hpc]; exact stay h (fun _ _ => rfl) (by rw [hpc]; simp) (by decide) (by simp)
      | setSpin =>
        simp only [hpc] at h
        rw [← hpc]
        split at h
        · exact gets h (fun _ _ => rfl) (by rw [hpc]; decide) (by simp) (by simp)
        · exact same (by rw [hpc]; decide) h
      | clrCas =>
        simp only [hpc] at h
        rw [← hpc]
        split at h
        · exact stay h (fun _ _ => rfl) (by rw [hpc]; decide) (by decide) (by simp)
        · exact stay h (fun _ _ => rfl) (by rw [hpc]; decide) (by decide) (by simp)
      | clrSpin =>
        simp only [hpc] at h
        rw [← hpc]
        split at h
        · exact stay h (fun _ _ => rfl) (by rw [hpc]; decide) (by simp) (by simp)
        · exact same (by rw [hpc]; decide) h
      | clrReset c =>
        simp only [hpc] at h
        rw [← hpc]; exact stay h (fun _ _ => rfl) (by rw [hpc]; simp) (by simp) (by simp)
      | clrSignal c =>
        simp only [hpc] at h
        rw [← hpc]; exact stay h (fun _ _ => rfl) (by rw [hpc]; simp) (by decide) (by simp)
      | testCas =>
        simp only [hpc] at h
        rw [← hpc]
        split at h
        · exact gets h (fun _ _ => rfl) (by rw [hpc]; decide) (by simp) (by simp)
        · exact stay h (fun _ _ => rfl) (by rw [hpc]; decide) (by decide) (by simp)

/-! ## Runs -/

theorem run_append {T : Sys} {x y z : X} {t1 t2 : List Ent} (h1 : Run T x t1 y) (h2 : Run T y t2 z) : Run T x (t1 ++ t2) z := by
  induction h2 with
  | nil => simpa using h1
  | snoc r s ih => rw [← List.append_assoc]; exact Run.snoc ih s

theorem run_split {T : Sys} {x z : X} {t1 t2 : List Ent} (h : Run T x (t1 ++ t2) z) : ∃ y, Run T x t1 y ∧ Run T y t2 z := by
  induction t2 using List.reverseRecOn generalizing z with
  | nil => exact ⟨z, by simpa using h, Run.nil z⟩
  | append_singleton t s ih =>
    rw [← List.append_assoc] at h
    generalize e : t1 ++ t ++ [s] = tr at h
    cases h with
    | nil => simp at e
    | snoc r st =>
      rename_i y tr' ev
      obtain ⟨e1, e2⟩ := List.append_inj' e (by simp)
      subst e1
      cases e2
      obtain ⟨w, h1, h2⟩ := ih r
      exact ⟨w, h1, Run.snoc h2 st⟩

theorem run_nil {T : Sys} {x z : X} {tr : List Ent} (h : Run T x tr z) (e : tr = []) : x = z := by
  cases h with
  | nil => rfl
  | snoc r s => simp at e

theorem run_one {T : Sys} {x z : X} {s : Ent} (h : Run T x [s] z) : s.pre = x ∧ s.post = z ∧ Step T x s.ev z := by
  generalize e : [s] = tr at h
  cases h with
  | nil => cases e
  | @snoc y _ tr' ev r st =>
    have : tr' = [] ∧ s = ⟨y, ev, z⟩ := by
      cases tr' with
      | nil => simpa using e
      | cons a b => simp at e
    obtain ⟨h1, rfl⟩ := this
    obtain rfl := run_nil r h1
    exact ⟨rfl, rfl, st⟩

/-- A run around one of its entries. -/
theorem run_mid {T : Sys} {x z : X} {t1 t2 : List Ent} {s : Ent} (h : Run T x (t1 ++ s :: t2) z) :
    Run T x t1 s.pre ∧ Step T s.pre s.ev s.post ∧ Run T s.post t2 z := by
  obtain ⟨y, h1, h2⟩ := run_split h
  rw [show s :: t2 = [s] ++ t2 from rfl] at h2
  obtain ⟨w, h3, h4⟩ := run_split h2
  obtain ⟨rfl, rfl, st⟩ := run_one h3
  exact ⟨h1, st, h4⟩

/-! ## The locks -/

theorem Respected.left {T : Sys} {t1 t2 : List Ent} (h : Respected T (t1 ++ t2)) : Respected T t1 :=
  fun s hs => h s (List.mem_append.2 (Or.inl hs))

/-- The lock part of a combined execution is an execution of the locks; nothing in flight writes to them; the invariant of `Vis`. -/
theorem proj {T : Sys} {x y : X} {tr : List Ent} (h0 : Start T x) (h : Run T x tr y) (hr : Respected T tr) :
    (∃ wtr, WExec T.lk y.words wtr) ∧ (∀ t, t < T.lk.n → ∀ a, T.lk.InLock t a → NoWriter y.g (t, a.toInt)) ∧ GI T.vis y.g := by
  induction h with
  | nil =>
    obtain ⟨⟨m, hm⟩, hi⟩ := h0
    refine ⟨⟨[], WExec.init hi⟩, ?_, ?_⟩
    · intro t _ a _; rw [hm]; exact Vis.noWriter_init m _
    · rw [hm]; exact Vis.gi_init _ m
  | @snoc y z tr ev r s ih =>
    obtain ⟨⟨wtr, hw⟩, hn, hg⟩ := ih hr.left
    cases s with
    | @rma e g' hs hc =>
      have hno : ∀ t, t < T.lk.n → ∀ a, T.lk.InLock t a → NoWriter g' (t, a.toInt) ∧ g'.mem t a.toInt = y.g.mem t a.toInt := by
        intro t ht a ha
        refine Vis.noWriter_step hs (hn t ht a ha) ?_
        exact hr _ (List.mem_append.2 (Or.inr (List.mem_singleton.2 rfl))) e rfl t ht a ha
      refine ⟨⟨wtr, ?_⟩, fun t ht a ha => (hno t ht a ha).1, Vis.gi_step hg hs⟩
      exact WExec.write (fun t a => g'.mem t a.toInt) hw (fun t ht a ha => (hno t ht a ha).2)
    | @lock l p a w ev hl hf hs =>
      have hp : p < T.lk.n := by rw [T.hn]; exact hf.1
      refine ⟨⟨wtr ++ ev.map (fun e => (l, e)), ?_⟩, fun t ht a ha => hn t ht a ha, gi_mem hg⟩
      rw [lock_words]
      exact WExec.call l p a hw hl hp hs

/-- A lock step changes no byte that is in no lock. -/
theorem lock_frame {T : Sys} (wf : T.lk.WF) (un : T.lk.Uniform) {x : X} {wtr : List (Nat × Lock.Ev)} (hw : WExec T.lk x.words wtr) {l p : Nat}
    {a : Act} {w : WState} {ev : List Lock.Ev} (hl : l < T.lk.m) (hf : Vis.Free T.vis x.g p)
    (h : wstep T.lk x.words l p a = some (w, ev)) {k : Nat × Int} (hk : ∀ b, T.lk.InLock k.1 b → b.toInt ≠ k.2) :
    back x.g.mem w.mem k.1 k.2 = x.g.mem k.1 k.2 := by
  have hp : p < T.lk.n := by rw [T.hn]; exact hf.1
  refine back_same (fun b hb => ?_)
  have h1 := C89_frame_partial wf un hw hl hp h k.1 b (fun i hi e => hk b ⟨l, hl, i, hi, e⟩ hb)
  rw [h1]
  show x.g.mem k.1 b.toInt = _
  rw [hb]

/-! ## Who has writes in flight -/

/-- a new access in flight belongs to the caller of the event -/
theorem at_new {S : Vis.Sys} {g g' : Vis.G} {e : Vis.Ev} (h : Vis.Step S g e g') {a : Vis.Atom} {r : Nat} {own : Option Pend}
    (ha : At g' a r own) : At g a r own ∨ (caller e = some r ∧ (∀ k, a.writes k → e.writes k) ∧ (own = none ∨ posts e = true)) := by
  rcases Vis.at_step h ha with h1 | ⟨hs, hw⟩
  · exact Or.inl h1
  · cases h with
    | put p tgt nbi ctx addr src n gpu mode oc tc oty tty xs s' hf hm e hx d =>
      rcases Vis.at_after ha with h | ⟨rfl, _, _⟩
      · exact Or.inl h
      · exact Or.inr ⟨rfl, hw, Or.inr rfl⟩
    | get p tgt nbi ctx addr src n gpu mode oc tc oty tty xs s' hf hm e hx d =>
      rcases Vis.at_after ha with h | ⟨rfl, ho, _⟩
      · exact Or.inl h
      · refine Or.inr ⟨rfl, hw, ?_⟩
        cases nbi with
        | true => exact Or.inr rfl
        | false =>
          left
          rcases Vis.pushed_issue e with ⟨h, _⟩ | ⟨_, _, _, _, _, _, _, _, h⟩
          · exact ho.trans h
          · rcases h with h | h <;> cases h
    | amo p tgt ctx addr r ty api gpu mode s' hf hm ht hk e hr d =>
      rcases Vis.at_after ha with h | ⟨rfl, _, _⟩
      · exact Or.inl h
      · exact Or.inr ⟨rfl, hw, Or.inr (by simp [posts, hk])⟩
    | amoRet p tgt ctx addr r ty api gpu mode s' hf hm ht hk e hr d =>
      rcases Vis.at_afterRet ha with h | ⟨rfl, ho, _⟩
      · exact Or.inl h
      · exact Or.inr ⟨rfl, hw, Or.inl ho⟩
    | store p a v hf => exact absurd rfl hs
    | poll p addr r n mode hf hm hr => exact absurd rfl hs
    | touch p ws hf => exact absurd rfl hs
    | call p op s' hf l hop e d => exact absurd rfl hs
    | enter p s' hf e d => exact absurd rfl hs
    | leave p hp h0 ha' => exact absurd rfl hs
    | perform q l1 l2 pd t1 t2 b m' hq hl e => exact absurd rfl hs
    | performBusy q t1 t2 b m' hq hl e => exact absurd rfl hs
    | fin q done hq d => exact absurd rfl hs

/-- Everything in flight that writes a guarded byte belongs to a holder of the lock, and unless it belongs to the blocking call the
PE is in, the PE has not called quiet or fence since. -/
def Owned (l : Nat) (k : Nat × Int) (tr : List Ent) (x : X) : Prop :=
  ∀ a r own, At x.g a r own → a.writes k → x.pc l r = .held ∧ (own = none ∨ ∃ t1 s t2 e, tr = t1 ++ s :: t2 ∧ s.ev = .rma e ∧ e.writes k ∧
    posts e = true ∧ caller e = some r ∧ ∀ u ∈ t2, ¬ Quiets r u.ev)

theorem Guarded.left {l : Nat} {k : Nat × Int} {t1 t2 : List Ent} (h : Guarded l k (t1 ++ t2)) : Guarded l k t1 :=
  ⟨fun s hs => h.held s (List.mem_append.2 (Or.inl hs)), fun a s b c d e p ev heq => h.quiet a s b c (d ++ t2) e p ev (by rw [heq]; simp)⟩

theorem owned {T : Sys} {x y : X} {tr : List Ent} {l : Nat} {k : Nat × Int} (h0 : Start T x) (h : Run T x tr y) (hr : Respected T tr)
    (hg : Guarded l k tr) : Owned l k tr y := by
  induction h with
  | nil =>
    obtain ⟨⟨m, hm⟩, _⟩ := h0
    intro a r own ha hw
    rw [hm] at ha
    exact absurd hw (Vis.noWriter_init m k a ⟨r, own, ha⟩)
  | @snoc y z tr ev rr s ih =>
    have iho := ih hr.left hg.left
    obtain ⟨_, _, hgi⟩ := proj h0 rr hr.left
    have hlast : (⟨y, ev, z⟩ : Ent) ∈ tr ++ [⟨y, ev, z⟩] := List.mem_append.2 (Or.inr (List.mem_singleton.2 rfl))
    intro a r own ha hw
    cases s with
    | @rma e g' hs hc =>
      rcases at_new hs ha with h1 | ⟨h1, h2, h3⟩
      · obtain ⟨h4, h5⟩ := iho a r own h1 hw
        refine ⟨h4, ?_⟩
        rcases h5 with h5 | ⟨t1, s, t2, e', rfl, he1, he2, he3, he4, he5⟩
        · exact Or.inl h5
        · by_cases hq : Quiets r (.rma e)
          · exfalso
            have hq' : ∃ op, (op = .quiet none ∨ op = .fence none) ∧ e = .call r op := by
              rcases hq with hq | hq
              · cases hq; exact ⟨_, Or.inl rfl, rfl⟩
              · cases hq; exact ⟨_, Or.inr rfl, rfl⟩
            obtain ⟨op, hop, rfl⟩ := hq'
            obtain ⟨f1, f2⟩ := Vis.quiet_step hgi hop hs
            rcases ha with ⟨y', hy, _⟩ | ⟨_, hb⟩
            · rw [f1] at hy; cases hy
            · rw [f2] at hb; cases hb
          · refine Or.inr ⟨t1, s, t2 ++ [⟨y, .rma e, ⟨g', y.pc⟩⟩], e', by simp, he1, he2, he3, he4, ?_⟩
            intro u hu
            rcases List.mem_append.1 hu with hu | hu
            · exact he5 u hu
            · rw [List.mem_singleton] at hu; subst hu; exact hq
      · obtain ⟨p, hp1, hp2⟩ := hg.held _ hlast e rfl (h2 k hw)
        rw [h1] at hp1
        cases hp1
        refine ⟨hp2, ?_⟩
        rcases h3 with h3 | h3
        · exact Or.inl h3
        · exact Or.inr ⟨tr, _, [], e, rfl, rfl, h2 k hw, h3, h1, fun u hu => (by cases hu)⟩
    | @lock l' p act w ev hl hf hs =>
      obtain ⟨h4, h5⟩ := iho a r own ha hw
      obtain ⟨q1, q2, q3, q4⟩ := wstep_pc hs
      by_cases hc : l = l' ∧ r = p
      · exfalso
        obtain ⟨rfl, rfl⟩ := hc
        have hact : act = .callClear := q2 h4
        subst hact
        rcases h5 with rfl | ⟨t1, s, t2, e', rfl, he1, he2, he3, he4, he5⟩
        · rcases ha with ⟨_, _, ho, _⟩ | ⟨_, hb⟩
          · cases ho
          · rw [show y.g.busy r = [] from hf.2.2] at hb; cases hb
        · obtain ⟨u, hu, hq⟩ := hg.quiet t1 s t2 ⟨y, .lock l r .callClear ev, _⟩ [] e' r ev (by rw [List.append_assoc, List.cons_append]) he1 he2 he3 he4 rfl
          exact he5 u hu hq
      · refine ⟨?_, ?_⟩
        · rw [← h4]; exact q1 l r hc
        · rcases h5 with h5 | ⟨t1, s, t2, e', rfl, he1, he2, he3, he4, he5⟩
          · exact Or.inl h5
          · refine Or.inr ⟨t1, s, t2 ++ [⟨y, .lock l' p act ev, _⟩], e', by rw [List.append_assoc, List.cons_append], he1, he2, he3, he4, ?_⟩
            intro u hu
            rcases List.mem_append.1 hu with hu | hu
            · exact he5 u hu
            · rw [List.mem_singleton] at hu; subst hu
              rintro (hq | hq) <;> cases hq

/-- When a PE calls `shmem_clear_lock` nothing in flight writes a byte guarded by the lock. -/
theorem clear_settled {T : Sys} (wf : T.lk.WF) (un : T.lk.Uniform) {x y : X} {t1 t2 : List Ent} {s : Ent} {l q : Nat} {k : Nat × Int}
    (hl : l < T.lk.m) (h0 : Start T x) (h : Run T x (t1 ++ s :: t2) y) (hr : Respected T (t1 ++ s :: t2)) (hg : Guarded l k (t1 ++ s :: t2))
    (hs : Clears l q s) : NoWriter s.pre.g k ∧ NoWriter s.post.g k ∧ (∀ r, s.post.pc l r ≠ .held) ∧ s.pre.pc l q = .held := by
  rw [show t1 ++ s :: t2 = (t1 ++ [s]) ++ t2 by simp] at h hr hg
  obtain ⟨y1, h1, _⟩ := run_split h
  obtain ⟨g1, st, g3⟩ := run_mid h1
  have ow := owned h0 (Run.snoc g1 st) hr.left hg.left
  obtain ⟨ev, he⟩ := hs
  obtain ⟨⟨wtr, hw⟩, _, _⟩ := proj h0 g1 hr.left.left
  obtain ⟨pre, e0, post⟩ := s
  simp only at he st
  subst he
  cases st with
  | @lock _ _ _ w _ hl' hf hstep =>
    obtain ⟨q1, q2, q3, q4⟩ := wstep_pc hstep
    have hheld : pre.pc l q = .held := by
      simp only [wstep] at hstep
      split at hstep
      · rename_i hc; exact hc.1
      · cases hstep
    have hnh : ∀ r, w.pc l r ≠ .held := by
      intro r hrh
      by_cases e : r = q
      · subst e
        exact (q3 hrh).1 hheld
      · rw [q1 l r (fun hc => e hc.2)] at hrh
        exact e ((C89_locks_partial wf un hw hl).1 r q hrh hheld)
    have hno : NoWriter pre.g k := by
      rintro a ⟨r, own, ha⟩ hwr
      exact hnh r (ow a r own ha hwr).1
    exact ⟨hno, hno, hnh, hheld⟩

/-- While nobody holds the lock, and until somebody gets it, a guarded byte keeps its value. -/
theorem idle_run {T : Sys} (wf : T.lk.WF) (un : T.lk.Uniform) {x y z : X} {t1 t2 : List Ent} {l : Nat} {k : Nat × Int}
    (h0 : Start T x) (h1 : Run T x t1 y) (h2 : Run T y t2 z) (hr : Respected T (t1 ++ t2)) (hg : Guarded l k (t1 ++ t2))
    (hk : ∀ b, T.lk.InLock k.1 b → b.toInt ≠ k.2) (hno : NoWriter y.g k) (hh : ∀ r, y.pc l r ≠ .held)
    (hacq : ∀ s ∈ t2, ∀ p, ¬ Acquires l p s) : NoWriter z.g k ∧ (∀ r, z.pc l r ≠ .held) ∧ z.g.mem k.1 k.2 = y.g.mem k.1 k.2 := by
  induction h2 with
  | nil => exact ⟨hno, hh, rfl⟩
  | @snoc u z tr ev rr s ih =>
    rw [← List.append_assoc] at hr hg
    obtain ⟨i1, i2, i3⟩ := ih hr.left hg.left (fun s hs => hacq s (List.mem_append.2 (Or.inl hs)))
    have hlast : (⟨u, ev, z⟩ : Ent) ∈ (t1 ++ tr) ++ [⟨u, ev, z⟩] := List.mem_append.2 (Or.inr (List.mem_singleton.2 rfl))
    cases s with
    | @rma e g' hs hc =>
      obtain ⟨j1, j2⟩ := Vis.noWriter_step hs i1 (fun hw => by
        obtain ⟨p, _, hp⟩ := hg.held _ hlast e rfl hw
        exact i2 p hp)
      exact ⟨j1, i2, j2.trans i3⟩
    | @lock l' p act w ev hl hf hs =>
      obtain ⟨⟨wtr, hw⟩, _, _⟩ := proj h0 (run_append h1 rr) hr.left
      obtain ⟨q1, q2, q3, q4⟩ := wstep_pc hs
      refine ⟨i1, ?_, (lock_frame wf un hw hl hf hs hk).trans i3⟩
      intro r hrh
      by_cases e : l = l' ∧ r = p
      · obtain ⟨rfl, rfl⟩ := e
        exact hacq _ (List.mem_append.2 (Or.inr (List.mem_singleton.2 rfl))) r ⟨act, ev, rfl, (q3 hrh).2⟩
      · exact i2 r ((q1 l r e).symm.trans hrh)

/-! ## Inside a critical section -/

/-- A holder that does not call clear goes on holding. -/
theorem held_run {T : Sys} {y z : X} {t2 : List Ent} {l p : Nat} (h2 : Run T y t2 z) (hh : y.pc l p = .held)
    (hc : ∀ s ∈ t2, ¬ Clears l p s) : z.pc l p = .held ∧ ∀ s ∈ t2, s.pre.pc l p = .held := by
  induction h2 with
  | nil => exact ⟨hh, fun s hs => by cases hs⟩
  | @snoc u z tr ev rr s ih =>
    obtain ⟨i1, i2⟩ := ih (fun s hs => hc s (List.mem_append.2 (Or.inl hs)))
    refine ⟨?_, fun s hs => ?_⟩
    · cases s with
      | @rma e g' hs hcc => exact i1
      | @lock l' p' act w ev hl hf hs =>
        obtain ⟨q1, q2, q3, q4⟩ := wstep_pc hs
        by_cases e : l = l' ∧ p = p'
        · obtain ⟨rfl, rfl⟩ := e
          have := q2 i1
          subst this
          exact absurd ⟨ev, rfl⟩ (hc _ (List.mem_append.2 (Or.inr (List.mem_singleton.2 rfl))))
        · exact (q1 l p e).trans i1
    · rcases List.mem_append.1 hs with hs | hs
      · exact i2 s hs
      · rw [List.mem_singleton] at hs; subst hs; exact i1

/-- One holder at a time, in the combined executions. -/
theorem exclusion {T : Sys} (wf : T.lk.WF) (un : T.lk.Uniform) {x y : X} {tr : List Ent} (h0 : Start T x) (h : Run T x tr y)
    (hr : Respected T tr) {l p r : Nat} (hl : l < T.lk.m) (hp : y.pc l p = .held) (hq : y.pc l r = .held) : p = r := by
  obtain ⟨⟨wtr, hw⟩, _, _⟩ := proj h0 h hr
  exact (C89_locks_partial wf un hw hl).1 p r hp hq

/-- The writes of a guarded byte while `p` holds the lock are those of `p`. -/
theorem writes_own {T : Sys} (wf : T.lk.WF) (un : T.lk.Uniform) {x y z : X} {t1 t2 : List Ent} {l p : Nat} {k : Nat × Int} (hl : l < T.lk.m)
    (h0 : Start T x) (h1 : Run T x t1 y) (h2 : Run T y t2 z) (hr : Respected T (t1 ++ t2)) (hg : Guarded l k (t1 ++ t2))
    (hh : y.pc l p = .held) (hc : ∀ s ∈ t2, ¬ Clears l p s) : ∀ s ∈ t2, ∀ e, s.ev = .rma e → e.writes k → caller e = some p := by
  intro s hs e he hw
  obtain ⟨q, hq, hqh⟩ := hg.held s (List.mem_append.2 (Or.inr hs)) e he hw
  have hp := (held_run h2 hh hc).2 s hs
  obtain ⟨a, b, rfl⟩ := List.append_of_mem hs
  obtain ⟨r1, _, _⟩ := run_mid h2
  rw [← List.append_assoc] at hr
  have := exclusion wf un h0 (run_append h1 r1) hr.left hl hqh hp
  rw [hq, this]

/-- A byte that nothing in flight writes and nobody writes keeps its value through lock steps, too. -/
theorem quiet_run {T : Sys} (wf : T.lk.WF) (un : T.lk.Uniform) {x y z : X} {t1 t2 : List Ent} {k : Nat × Int}
    (h0 : Start T x) (h1 : Run T x t1 y) (h2 : Run T y t2 z) (hr : Respected T (t1 ++ t2))
    (hk : ∀ b, T.lk.InLock k.1 b → b.toInt ≠ k.2) (hno : NoWriter y.g k) (hw : ∀ s ∈ t2, ∀ e, s.ev = .rma e → ¬ e.writes k) :
    NoWriter z.g k ∧ z.g.mem k.1 k.2 = y.g.mem k.1 k.2 := by
  induction h2 with
  | nil => exact ⟨hno, rfl⟩
  | @snoc u z tr ev rr s ih =>
    rw [← List.append_assoc] at hr
    obtain ⟨i1, i3⟩ := ih hr.left (fun s hs => hw s (List.mem_append.2 (Or.inl hs)))
    cases s with
    | @rma e g' hs hc =>
      obtain ⟨j1, j2⟩ := Vis.noWriter_step hs i1 (hw _ (List.mem_append.2 (Or.inr (List.mem_singleton.2 rfl))) e rfl)
      exact ⟨j1, j2.trans i3⟩
    | @lock l' p act w ev hl hf hs =>
      obtain ⟨⟨wtr, hw'⟩, _, _⟩ := proj h0 (run_append h1 rr) hr.left
      exact ⟨i1, (lock_frame wf un hw' hl hf hs hk).trans i3⟩

/-- The fate of one written byte (`Vis.Only`) through lock steps, too. -/
theorem only_run {T : Sys} (wf : T.lk.WF) (un : T.lk.Uniform) {x y z : X} {t1 t2 : List Ent} {q : Nat} {own : Option Pend}
    {src : Option (Nat × Int)} {k : Nat × Int} {v : BitVec 8}
    (h0 : Start T x) (h1 : Run T x t1 y) (h2 : Run T y t2 z) (hr : Respected T (t1 ++ t2))
    (hk : ∀ b, T.lk.InLock k.1 b → b.toInt ≠ k.2) (hks : ∀ k', src = some k' → ∀ b, T.lk.InLock k'.1 b → b.toInt ≠ k'.2)
    (ho : Vis.Only y.g q own src k v) (hw : ∀ s ∈ t2, ∀ e, s.ev = .rma e → ¬ e.writes k)
    (hs : ∀ k', src = some k' → ∀ s ∈ t2, ∀ e, s.ev = .rma e → ¬ e.writes k') : Vis.Only z.g q own src k v := by
  induction h2 with
  | nil => exact ho
  | @snoc u z tr ev rr s ih =>
    rw [← List.append_assoc] at hr
    have i1 := ih hr.left (fun s hs => hw s (List.mem_append.2 (Or.inl hs))) (fun k' hk' s h => hs k' hk' s (List.mem_append.2 (Or.inl h)))
    have hm : (⟨u, ev, z⟩ : Ent) ∈ tr ++ [⟨u, ev, z⟩] := List.mem_append.2 (Or.inr (List.mem_singleton.2 rfl))
    cases s with
    | @rma e g' st hc => exact Vis.only_step i1 st (hw _ hm e rfl) (fun k' hk' => hs k' hk' _ hm e rfl)
    | @lock l' p act w ev hl hf st =>
      obtain ⟨⟨wtr, hw'⟩, _, _⟩ := proj h0 (run_append h1 rr) hr.left
      refine ⟨i1.only, fun k' hk' => ⟨(i1.src k' hk').1, ?_⟩, ?_⟩
      · exact (lock_frame wf un hw' hl hf st (hks k' hk')).trans (i1.src k' hk').2
      · rcases i1.val with h | h
        · exact Or.inl ((lock_frame wf un hw' hl hf st hk).trans h)
        · exact Or.inr h

/-- If a holder outside blocking calls has called quiet or fence since it last wrote a guarded byte, nothing in flight writes it. -/
theorem holder_settled {T : Sys} (wf : T.lk.WF) (un : T.lk.Uniform) {x y : X} {tr : List Ent} {l p : Nat} {k : Nat × Int} (hl : l < T.lk.m)
    (h0 : Start T x) (h : Run T x tr y) (hr : Respected T tr) (hg : Guarded l k tr) (hh : y.pc l p = .held) (hb : y.g.busy p = [])
    (hq : ∀ a s b e, tr = a ++ s :: b → s.ev = .rma e → e.writes k → posts e = true → caller e = some p → ∃ u ∈ b, Quiets p u.ev) :
    NoWriter y.g k := by
  rintro a ⟨r, own, ha⟩ hw
  obtain ⟨h1, h2⟩ := owned h0 h hr hg a r own ha hw
  obtain rfl := exclusion wf un h0 h hr hl hh h1
  rcases h2 with rfl | ⟨t1, s, t2, e, e1, e2, e3, e4, e5, e6⟩
  · rcases ha with ⟨_, _, ho, _⟩ | ⟨_, hbm⟩
    · cases ho
    · rw [hb] at hbm; cases hbm
  · obtain ⟨u, hu, hqu⟩ := hq t1 s t2 e e1 e2 e3 e4 e5
    exact e6 u hu hqu

end Verif.Crit
