import Verif.Vis.Sum
import Verif.Amo.Exact
/-!
# Property C73: the AMOs on a word take effect one after another, and each returns what it found
-/
namespace Verif.Vis
open Verif.Sobj Verif.Rma
open Verif.Order (St Pend Cfg Op)
open Verif.Amo (TyIdx Fp)

/-- The AMOs on the word of type `ty` at address `a` of PE `t` that have been performed, in the order of the history: calling
PE, routine with operands, value returned. -/
def acts (t : Nat) (a : Int) (ty : TyIdx) : List Ev → List (Nat × Amo.Api × Nat)
  | [] => []
  | .done q (.upd d a' ty' api _) r :: l =>
    if d = t ∧ a' = a ∧ ty' = ty then (q, api, r) :: acts t a ty l else acts t a ty l
  | .done _ (.set _ _ _) _ :: l => acts t a ty l
  | .done _ (.mv _ _ _ _) _ :: l => acts t a ty l
  | .amo _ _ _ _ _ _ _ _ :: l => acts t a ty l
  | .put _ _ _ _ _ _ _ :: l => acts t a ty l
  | .get _ _ _ _ _ _ _ :: l => acts t a ty l
  | .store _ _ _ :: l => acts t a ty l
  | .poll _ _ _ _ :: l => acts t a ty l
  | .touch _ _ :: l  => acts t a ty l
  | .call _ _ :: l => acts t a ty l
  | .enter _ :: l => acts t a ty l
  | .leave _ :: l => acts t a ty l
  | .tau :: l => acts t a ty l

/-- A sequential execution of AMOs on a word: from `x` to the last index, every routine does and returns what OpenSHMEM says
(`Amo.spec`). -/
inductive Seq {w : Nat} : BitVec w → List (Nat × Amo.Api × Nat) → BitVec w → Prop
  | nil (x : BitVec w) : Seq x [] x
  | cons {x z : BitVec w} {q r : Nat} {api : Amo.Api} {l : List (Nat × Amo.Api × Nat)}
      (h : ∀ v, (Amo.spec x api).2 = some v → BitVec.ofNat w r = v ∧ r < 2 ^ w) (s : Seq (Amo.spec x api).1 l z) :
      Seq x ((q, api, r) :: l) z

theorem seq_append {w : Nat} {x y z : BitVec w} {l1 l2 : List (Nat × Amo.Api × Nat)} (h1 : Seq x l1 y) (h2 : Seq y l2 z) :
    Seq x (l1 ++ l2) z := by
  induction h1 with
  | nil x => exact h2
  | cons h s ih => exact Seq.cons h (ih h2)

theorem seq_split {w : Nat} {x z : BitVec w} {l1 l2 : List (Nat × Amo.Api × Nat)} (h : Seq x (l1 ++ l2) z) :
    ∃ y, Seq x l1 y ∧ Seq y l2 z := by
  induction l1 generalizing x with
  | nil => exact ⟨x, Seq.nil x, h⟩
  | cons c l ih =>
    cases h with
    | cons h s =>
      obtain ⟨y, h1, h2⟩ := ih s
      exact ⟨y, Seq.cons h h1, h2⟩

/-- the event is an AMO call on the word -/
def Ev.IsAmo (t : Nat) (a : Int) (ty : TyIdx) (e : Ev) : Prop := ∃ p ctx addr api ep, e = .amo p t ctx addr a ty api ep

/-- only AMOs on the whole word are in flight -/
def Amos (g : G) (t : Nat) (a : Int) (ty : TyIdx) : Prop := ∀ b, Flies g b → ∀ k : Nat × Int, k.1 = t → a ≤ k.2 →
  k.2 < a + ty.bytes → b.writes k → ∃ api am, b = .upd t a ty api am ∧ ty ∈ api.types

theorem amos_step {S : Sys} {t : Nat} {a : Int} {ty : TyIdx} {g g' : G} {e : Ev} (ha : Amos g t a ty) (h : Step S g e g')
    (he : e.touches t a ty → e.IsAmo t a ty) : Amos g' t a ty := by
  rintro b ⟨r, own, hb⟩ k h1 h2 h3 hw
  rcases at_step h hb with hb' | ⟨_, hb'⟩
  · exact ha b ⟨r, own, hb'⟩ k h1 h2 h3 hw
  · obtain ⟨p, ctx, addr, api, ep, rfl⟩ := he ⟨k.2, h2, h3, by rw [← h1]; exact hb' k hw⟩
    cases h with
    | amo p tgt ctx addr r' ty api gpu mode s' hf hm hty hk e hr d =>
      rcases at_after hb with h | ⟨_, _, h⟩
      · exact ha b ⟨r, own, h⟩ k h1 h2 h3 hw
      · rw [List.mem_singleton] at h
        subst h
        exact ⟨api, _, rfl, hty⟩
    | amoRet p tgt ctx addr r' ty api gpu mode s' hf hm hty hk e hr d =>
      rcases at_afterRet hb with h | ⟨_, _, h⟩
      · exact ha b ⟨r, own, h⟩ k h1 h2 h3 hw
      · rw [List.mem_singleton] at h
        subst h
        exact ⟨api, _, rfl, hty⟩

/-- performing an AMO on the word: what OpenSHMEM says -/
theorem perform_upd {fp : Fp} {junk : Mem} {m m' : Mems} {t : Nat} {a : Int} {ty : TyIdx} {api : Amo.Api} {am : Bool}
    (ht : ty ∈ api.types) (e : (Atom.upd t a ty api am).perform fp junk m = .ok m') :
    wordAt (m' t) a ty = (Amo.spec (wordAt (m t) a ty) api).1 ∧
    ∀ v, (Amo.spec (wordAt (m t) a ty) api).2 = some v →
      BitVec.ofNat _ ((Atom.upd t a ty api am).result fp junk m) = v ∧
      (Atom.upd t a ty api am).result fp junk m < 2 ^ (8 * ty.bytes) := by
  rw [Amo.p256]
  unfold Atom.perform at e
  dsimp only at e
  cases am with
  | true =>
    rw [if_pos rfl] at e
    obtain ⟨x, h1, e⟩ := bind_ok' e
    cases e
    have hm := Amo.C24_ok fp junk _ 0 ht h1
    have hres : (Atom.upd t a ty api true).result fp junk m = x.2 := by simp only [Atom.result, if_true, h1]
    rw [Function.update_self, wordAt_unview, wordAt_view, hres]
    exact ⟨hm.1, hm.2.1⟩
  | false =>
    rw [if_neg (by decide)] at e
    cases e
    have hm := Amo.C24_direct (view (m t) a) 0 (ty := ty) (a := api)
    have hres : (Atom.upd t a ty api false).result fp junk m = (Amo.direct (view (m t) a) 0 ty api).2 := rfl
    rw [Function.update_self, wordAt_unview, wordAt_view, hres]
    exact ⟨hm.1, hm.2.1⟩

/-- performing any access in flight -/
theorem perform_seq {S : Sys} {g : G} {t : Nat} {a : Int} {ty : TyIdx} (ha : Amos g t a ty) {b : Atom} (hb : Flies g b)
    {m' : Mems} (e : b.perform S.fp S.junk g.mem = .ok m') (q : Nat) :
    Seq (wordAt (g.mem t) a ty) (acts t a ty [.done q b (b.result S.fp S.junk g.mem)]) (wordAt (m' t) a ty) := by
  by_cases hw : ∃ k : Nat × Int, k.1 = t ∧ a ≤ k.2 ∧ k.2 < a + ty.bytes ∧ b.writes k
  · obtain ⟨k, h1, h2, h3, h4⟩ := hw
    obtain ⟨api, am, rfl, hty⟩ := ha b hb k h1 h2 h3 h4
    obtain ⟨e1, e2⟩ := perform_upd hty e
    rw [e1]
    simp only [acts, and_self, if_true]
    exact Seq.cons e2 (Seq.nil _)
  · have h0 : acts t a ty [.done q b (b.result S.fp S.junk g.mem)] = [] := by
      cases b with
      | set d a' v => rfl
      | mv s sa d a' => rfl
      | upd d a' ty' api am =>
        simp only [acts]
        split
        · rename_i h
          obtain ⟨rfl, rfl, rfl⟩ := h
          exfalso
          have := bytes_pos ty'
          exact hw ⟨(d, a'), rfl, le_refl _, by dsimp only; omega, rfl, le_refl _, by dsimp only; omega⟩
        · rfl
    rw [h0, wordAt_congr (m := m' t) (m' := g.mem t) (fun y h1 h2 =>
      perform_frame (k := (t, y)) e (fun h => hw ⟨(t, y), rfl, h1, h2, h⟩))]
    exact Seq.nil _

theorem seq_step {S : Sys} {t : Nat} {a : Int} {ty : TyIdx} {g g' : G} {e : Ev} (ha : Amos g t a ty)
    (h : Step S g e g') (he : e.touches t a ty → e.IsAmo t a ty) :
    Seq (wordAt (g.mem t) a ty) (acts t a ty [e]) (wordAt (g'.mem t) a ty) := by
  cases h with
  | put p tgt nbi ctx addr src n gpu mode oc tc oty tty xs s' hf hm e hx d => exact Seq.nil _
  | get p tgt nbi ctx addr src n gpu mode oc tc oty tty xs s' hf hm e hx d => exact Seq.nil _
  | amo p tgt ctx addr r ty' api gpu mode s' hf hm hty hk e hr d => exact Seq.nil _
  | amoRet p tgt ctx addr r ty' api gpu mode s' hf hm hty hk e hr d => exact Seq.nil _
  | store p a' v hf =>
    have : wordAt ((Function.update g.mem p (Function.update (g.mem p) a' v)) t) a ty = wordAt (g.mem t) a ty := by
      refine wordAt_congr (fun y h1 h2 => ?_)
      rw [upd_at]
      split
      · rename_i hp
        subst hp
        rw [Function.update_of_ne]
        rintro rfl
        obtain ⟨_, _, _, _, _, h⟩ := he ⟨y, h1, h2, rfl⟩
        cases h
      · rfl
    dsimp only
    rw [this]
    exact Seq.nil _
  | poll p addr r n mode hf hm hr => exact Seq.nil _
  | touch p ws hf =>
    have : wordAt ((touched g.mem ws) t) a ty = wordAt (g.mem t) a ty := by
      refine wordAt_congr (fun y h1 h2 => ?_)
      refine touched_other (k := (t, y)) fun w hw h => ?_
      obtain ⟨_, _, _, _, _, h⟩ := he ⟨y, h1, h2, w, hw, h⟩
      cases h
    dsimp only
    rw [this]
    exact Seq.nil _
  | call p op s' hf l hop e d => exact Seq.nil _
  | enter p s' hf e d => exact Seq.nil _
  | leave p hp h0 ha' => exact Seq.nil _
  | perform q l1 l2 pd t1 t2 b m' hq hl e =>
    exact perform_seq ha ⟨q, some pd, Or.inl ⟨⟨pd, t1 ++ b :: t2⟩, by rw [hl]; simp, rfl, by simp⟩⟩ e q
  | performBusy q t1 t2 b m' hq hl e => exact perform_seq ha ⟨q, none, Or.inr ⟨rfl, by rw [hl]; simp⟩⟩ e q
  | fin q done hq d => exact Seq.nil _

theorem acts_append (t : Nat) (a : Int) (ty : TyIdx) (l1 l2 : List Ev) :
    acts t a ty (l1 ++ l2) = acts t a ty l1 ++ acts t a ty l2 := by
  induction l1 with
  | nil => rfl
  | cons e l ih =>
    cases e with
    | done q b r =>
      cases b with
      | set d a' v => exact ih
      | mv s sa d a' => exact ih
      | upd d a' ty' api am =>
        simp only [List.cons_append, acts]
        split
        · rw [ih]; rfl
        · exact ih
    | put p tgt nbi ctx addr xs ep => exact ih
    | get p tgt nbi ctx addr xs ep => exact ih
    | amo p tgt ctx addr a ty api ep => exact ih
    | store p a v => exact ih
    | poll p a n r => exact ih
    | touch p ws => exact ih
    | call p op => exact ih
    | enter p => exact ih
    | leave p => exact ih
    | tau => exact ih

theorem seq_run {S : Sys} {t : Nat} {a : Int} {ty : TyIdx} {g g' : G} {l : List Ev} (ha : Amos g t a ty) (h : Run S g l g')
    (he : ∀ e ∈ l, e.touches t a ty → e.IsAmo t a ty) :
    Seq (wordAt (g.mem t) a ty) (acts t a ty l) (wordAt (g'.mem t) a ty) := by
  induction h with
  | nil g => exact Seq.nil _
  | @cons g1 g2 g3 e l s r ih =>
    have h1 := seq_step ha s (he _ (List.mem_cons_self ..))
    have h2 := ih (amos_step ha s (he _ (List.mem_cons_self ..))) (fun e h => he e (List.mem_cons_of_mem _ h))
    have := seq_append h1 h2
    rw [← acts_append] at this
    exact this

/-- C73. A word (of any type of the AMO interface) that is only accessed by AMOs, of any PEs, any routines, in any number and
interleaving, by MPI or by active message: in every execution the AMOs take effect one after another, each doing to the word and
returning what OpenSHMEM says, starting from what the word held and ending with what it holds. -/
theorem C73_linear {S : Sys} {g0 g : G} {l : List Ev} (h : Run S g0 l g) {t : Nat} {a : Int} {ty : TyIdx}
    (hn : ∀ y, a ≤ y → y < a + ty.bytes → NoWriter g0 (t, y))
    (hl : ∀ e ∈ l, e.touches t a ty → e.IsAmo t a ty) :
    Seq (wordAt (g0.mem t) a ty) (acts t a ty l) (wordAt (g.mem t) a ty) := by
  refine seq_run (fun b hb k h1 h2 h3 hw => absurd hw ?_) h hl
  have := hn k.2 h2 h3 b hb
  rw [← h1] at this
  exact this

/-! ## Calls and their results -/

/-- OpenSHMEM says that the routine returns a value -/
def yields (api : Amo.Api) : Bool := (Amo.spec (0#8) api).2.isSome

theorem returns_eq (api : Amo.Api) : returns api = yields api := by cases api <;> rfl

/-- a call of a routine that returns a value, or the moment at which the value is there -/
structure Inv' where
  t : Nat
  a : Int
  ty : TyIdx
  api : Amo.Api

/-- the calls of PE `q` of AMO routines that return a value, in order -/
def calls (q : Nat) : List Ev → List Inv'
  | [] => []
  | .amo p t _ _ a ty api _ :: l => if p = q ∧ yields api = true then ⟨t, a, ty, api⟩ :: calls q l else calls q l
  | .done _ _ _ :: l => calls q l
  | .put _ _ _ _ _ _ _ :: l => calls q l
  | .get _ _ _ _ _ _ _ :: l => calls q l
  | .store _ _ _ :: l => calls q l
  | .poll _ _ _ _ :: l => calls q l
  | .touch _ _ :: l  => calls q l
  | .call _ _ :: l => calls q l
  | .enter _ :: l => calls q l
  | .leave _ :: l => calls q l
  | .tau :: l => calls q l

/-- the AMOs of PE `q` that return a value and have been performed, in order -/
def rets (q : Nat) : List Ev → List Inv'
  | [] => []
  | .done p (.upd t a ty api _) _ :: l => if p = q ∧ yields api = true then ⟨t, a, ty, api⟩ :: rets q l else rets q l
  | .done _ (.set _ _ _) _ :: l => rets q l
  | .done _ (.mv _ _ _ _) _ :: l => rets q l
  | .amo _ _ _ _ _ _ _ _ :: l => rets q l
  | .put _ _ _ _ _ _ _ :: l => rets q l
  | .get _ _ _ _ _ _ _ :: l => rets q l
  | .store _ _ _ :: l => rets q l
  | .poll _ _ _ _ :: l => rets q l
  | .touch _ _ :: l  => rets q l
  | .call _ _ :: l => rets q l
  | .enter _ :: l => rets q l
  | .leave _ :: l => rets q l
  | .tau :: l => rets q l

theorem calls_append (q : Nat) (l1 l2 : List Ev) : calls q (l1 ++ l2) = calls q l1 ++ calls q l2 := by
  induction l1 with
  | nil => rfl
  | cons e l ih =>
    cases e with
    | amo p tgt ctx addr a ty api ep =>
      simp only [List.cons_append, calls]
      split
      · rw [ih]; rfl
      · exact ih
    | done q b r => exact ih
    | put p tgt nbi ctx addr xs ep => exact ih
    | get p tgt nbi ctx addr xs ep => exact ih
    | store p a v => exact ih
    | poll p a n r => exact ih
    | touch p ws => exact ih
    | call p op => exact ih
    | enter p => exact ih
    | leave p => exact ih
    | tau => exact ih

theorem rets_append (q : Nat) (l1 l2 : List Ev) : rets q (l1 ++ l2) = rets q l1 ++ rets q l2 := by
  induction l1 with
  | nil => rfl
  | cons e l ih =>
    cases e with
    | done p b r =>
      cases b with
      | set d a' v => exact ih
      | mv s sa d a' => exact ih
      | upd d a' ty' api am =>
        simp only [List.cons_append, rets]
        split
        · rw [ih]; rfl
        · exact ih
    | amo p tgt ctx addr a ty api ep => exact ih
    | put p tgt nbi ctx addr xs ep => exact ih
    | get p tgt nbi ctx addr xs ep => exact ih
    | store p a v => exact ih
    | poll p a n r => exact ih
    | touch p ws => exact ih
    | call p op => exact ih
    | enter p => exact ih
    | leave p => exact ih
    | tau => exact ih

/-- what an access returns a value to -/
def Atom.inv : Atom → List Inv'
  | .set _ _ _ => []
  | .mv _ _ _ _ => []
  | .upd t a ty api _ => if yields api = true then [⟨t, a, ty, api⟩] else []

theorem rets_done (q p : Nat) (b : Atom) (r : Nat) : rets q [.done p b r] = if p = q then b.inv else [] := by
  cases b with
  | set d a v => simp [rets, Atom.inv]
  | mv s sa d a => simp [rets, Atom.inv]
  | upd t a ty api am =>
    simp only [rets, Atom.inv]
    by_cases h : p = q <;> by_cases h' : yields api = true <;> simp [h, h']

/-- what PE `q` waits for -/
def waits (q : Nat) (g : G) : List Inv' := (g.busy q).flatMap Atom.inv

/-- nothing that returns a value is left in flight behind a call -/
def NoRet (g : G) : Prop := ∀ p, ∀ x ∈ g.fly p, ∀ b ∈ x.todo, b.inv = []

theorem noRet_after {g : G} {p : Nat} {s' : St} {new : List Atom} (h : NoRet g) (hn : ∀ b ∈ new, b.inv = []) :
    NoRet (after g p s' new) := by
  intro q x hx b hb
  rcases fly_after hx with ⟨h1, _⟩ | ⟨_, pd, _, rfl⟩
  · exact h q x h1 b hb
  · exact hn b hb

theorem inv_put (p t : Nat) (nbi : Bool) (m : IMem) (xs : List (Int × Int)) :
    ∀ b ∈ xs.map (fun x => if nbi = true then Atom.mv p x.2 t x.1 else Atom.set t x.1 (m x.2)), b.inv = [] := by
  intro b hb
  obtain ⟨y, _, rfl⟩ := List.mem_map.mp hb
  cases nbi <;> rfl

theorem inv_get (p t : Nat) (xs : List (Int × Int)) : ∀ b ∈ xs.map (fun x => Atom.mv t x.2 p x.1), b.inv = [] := by
  intro b hb
  obtain ⟨y, _, rfl⟩ := List.mem_map.mp hb
  rfl

theorem noRet_step {S : Sys} {g g' : G} {e : Ev} (hn : NoRet g) (h : Step S g e g') : NoRet g' := by
  cases h with
  | put p tgt nbi ctx addr src n gpu mode oc tc oty tty xs s' hf hm e hx d => exact noRet_after hn (inv_put _ _ _ _ _)
  | get p tgt nbi ctx addr src n gpu mode oc tc oty tty xs s' hf hm e hx d => exact noRet_after hn (inv_get _ _ _)
  | amo p tgt ctx addr r ty' api gpu mode s' hf hm hty hk e hr d =>
    rw [returns_eq] at hk
    refine noRet_after hn (fun b hb => ?_)
    rw [List.mem_singleton] at hb
    subst hb
    simp [Atom.inv, hk]
  | amoRet p tgt ctx addr r ty' api gpu mode s' hf hm hty hk e hr d =>
    rw [returns_eq] at hk
    exact noRet_after (s' := s') (p := p) hn (new := []) (by simp)
  | store p a' v hf => exact hn
  | poll p addr r n mode hf hm hr => exact hn
  | touch p ws hf => exact hn
  | call p op s' hf l hop e d => exact noRet_after hn (by simp)
  | enter p s' hf e d => exact noRet_after (s' := s') (p := p) hn (new := []) (by simp)
  | leave p hp h0 ha' => exact hn
  | perform q l1 l2 pd t1 t2 b m' hq hl e =>
    intro r x hx c hc
    simp only [upd_at] at hx
    split at hx
    · rename_i er
      subst er
      have hq' := hn r
      rw [hl] at hq'
      rcases List.mem_append.mp hx with h | h
      · exact hq' x (List.mem_append.mpr (Or.inl h)) c hc
      · rcases List.mem_cons.mp h with rfl | h
        · refine hq' ⟨pd, t1 ++ b :: t2⟩ (by simp) c ?_
          rcases List.mem_append.mp hc with h | h
          · exact List.mem_append.mpr (Or.inl h)
          · exact List.mem_append.mpr (Or.inr (List.mem_cons_of_mem _ h))
        · exact hq' x (by simp [h]) c hc
    · exact hn r x hx c hc
  | performBusy q t1 t2 b m' hq hl e => exact hn
  | fin q done hq d =>
    intro r x hx c hc
    simp only [upd_at] at hx
    split at hx
    · rename_i er
      subst er
      exact hn r x (List.mem_filter.mp hx).1 c hc
    · exact hn r x hx c hc

theorem flat_nil {l : List Atom} (h : ∀ b ∈ l, b.inv = []) : l.flatMap Atom.inv = [] := by
  induction l with
  | nil => rfl
  | cons b l ih =>
    rw [List.flatMap_cons, h b (List.mem_cons_self ..), ih (fun c hc => h c (List.mem_cons_of_mem _ hc))]
    rfl

theorem waits_after {g : G} {p q : Nat} {s' : St} {new : List Atom} (hb : g.busy p = []) (hn : ∀ b ∈ new, b.inv = []) :
    waits q (after g p s' new) = waits q g := by
  unfold waits
  simp only [after, upd_at]
  split
  · rename_i e
    subst e
    rw [hb]
    split
    · rfl
    · rw [flat_nil hn]; rfl
  · rfl

/-- a step: PE `q` waits for the value of at most one call -/
theorem waits_step {S : Sys} {q : Nat} {g g' : G} {e : Ev} (hn : NoRet g) (h : Step S g e g') (hw : (waits q g).length ≤ 1) :
    (waits q g).length ≤ 1 ∧ (waits q g').length ≤ 1 ∧ waits q g ++ calls q [e] = rets q [e] ++ waits q g' := by
  have same : waits q g' = waits q g → calls q [e] = [] → rets q [e] = [] →
      (waits q g).length ≤ 1 ∧ (waits q g').length ≤ 1 ∧ waits q g ++ calls q [e] = rets q [e] ++ waits q g' := by
    intro h1 h2 h3
    rw [h1, h2, h3]
    exact ⟨hw, hw, by simp⟩
  cases h with
  | put p tgt nbi ctx addr src n gpu mode oc tc oty tty xs s' hf hm e hx d =>
    exact same (waits_after hf.2.2 (inv_put _ _ _ _ _)) rfl rfl
  | get p tgt nbi ctx addr src n gpu mode oc tc oty tty xs s' hf hm e hx d =>
    exact same (waits_after hf.2.2 (inv_get _ _ _)) rfl rfl
  | amo p tgt ctx addr r ty' api gpu mode s' hf hm hty hk e hr d =>
    rw [returns_eq] at hk
    refine same (waits_after hf.2.2 (fun b hb => ?_)) ?_ rfl
    · rw [List.mem_singleton] at hb
      subst hb
      simp [Atom.inv, hk]
    · simp [calls, hk]
  | amoRet p tgt ctx addr r ty' api gpu mode s' hf hm hty hk e hr d =>
    rw [returns_eq] at hk
    by_cases hp : p = q
    · subst hp
      have h0 : waits p g = [] := by unfold waits; rw [hf.2.2]; rfl
      have h1 : waits p (afterRet g p s' [.upd tgt r.toInt ty' api (!(S.cf p).isDirect (amoKind api) gpu)]) =
          [⟨tgt, r.toInt, ty', api⟩] := by
        unfold waits
        simp [afterRet, Atom.inv, hk]
      rw [h0, h1]
      simp [calls, rets, hk]
    · refine same ?_ (by simp [calls, hp]) rfl
      unfold waits
      simp only [afterRet, upd_at]
      rw [if_neg (fun h => hp h.symm)]
  | store p a' v hf => exact same rfl rfl rfl
  | poll p addr r n mode hf hm hr => exact same rfl rfl rfl
  | touch p ws hf => exact same rfl rfl rfl
  | call p op s' hf l hop e d => exact same (waits_after hf.2.2 (by simp)) rfl rfl
  | enter p s' hf e d =>
    have : waits q (after g p s' []) = waits q g := waits_after hf.2.2 (by simp)
    exact same this rfl rfl
  | leave p hp h0 ha' => exact same rfl rfl rfl
  | perform r l1 l2 pd t1 t2 b m' hq hl e =>
    refine same rfl rfl ?_
    rw [rets_done]
    split
    · exact hn r ⟨pd, t1 ++ b :: t2⟩ (by rw [hl]; simp) b (by simp)
    · rfl
  | performBusy r t1 t2 b m' hq hl e =>
    by_cases hp : r = q
    · subst hp
      have h0 : waits r g = t1.flatMap Atom.inv ++ (b.inv ++ t2.flatMap Atom.inv) := by
        unfold waits; rw [hl, List.flatMap_append, List.flatMap_cons]
      have h1 : waits r { g with mem := m', busy := Function.update g.busy r (t1 ++ t2) } =
          t1.flatMap Atom.inv ++ t2.flatMap Atom.inv := by
        unfold waits
        simp only [upd_at, if_true, List.flatMap_append]
      rw [rets_done, if_pos rfl, h1]
      refine ⟨hw, ?_, ?_⟩
      · rw [h0] at hw
        simp only [List.length_append] at hw ⊢
        omega
      · rw [h0]
        rw [h0] at hw
        simp only [List.length_append] at hw
        simp only [calls, List.append_nil]
        cases h2 : t1.flatMap Atom.inv with
        | nil => simp
        | cons c l =>
          have h3 : b.inv = [] := by
            rw [h2, List.length_cons] at hw
            exact List.eq_nil_of_length_eq_zero (by omega)
          rw [h3]
          simp
    · refine same ?_ rfl ?_
      · unfold waits
        simp only [upd_at]
        rw [if_neg (fun h => hp h.symm)]
      · rw [rets_done, if_neg hp]
  | fin r done hq d => exact same rfl rfl rfl

theorem waits_run {S : Sys} {q : Nat} {g g' : G} {l : List Ev} (hn : NoRet g) (h : Run S g l g') (hw : (waits q g).length ≤ 1) :
    (waits q g').length ≤ 1 ∧ waits q g ++ calls q l = rets q l ++ waits q g' := by
  induction h with
  | nil g => simp [calls, rets, hw]
  | @cons g1 g2 g3 e l s r ih =>
    obtain ⟨_, h1, h2⟩ := waits_step hn s hw
    obtain ⟨h3, h4⟩ := ih (noRet_step hn s) h1
    refine ⟨h3, ?_⟩
    have hc : calls q (e :: l) = calls q [e] ++ calls q l := calls_append q [e] l
    have hr : rets q (e :: l) = rets q [e] ++ rets q l := rets_append q [e] l
    rw [hc, hr, ← List.append_assoc, h2, List.append_assoc, h4, List.append_assoc]

/-- C73. Each call takes effect exactly once, between call and return. At every moment of every execution, the AMOs of PE `q`
that return a value and have been performed are the calls it has made, in the same order, all of them if the PE is not in a
call, otherwise all but possibly the last. -/
theorem C73_once {S : Sys} {m : Mems} {g : G} {l : List Ev} (h : Run S (ginit m) l g) (q : Nat) :
    (g.busy q = [] → rets q l = calls q l) ∧ (rets q l = calls q l ∨ ∃ c, calls q l = rets q l ++ [c]) := by
  have hn : NoRet (ginit m) := by intro p x hx; cases hx
  have hw : (waits q (ginit m)).length ≤ 1 := by simp [waits, ginit]
  obtain ⟨h1, h2⟩ := waits_run hn h hw
  have h0 : waits q (ginit m) = [] := rfl
  rw [h0, List.nil_append] at h2
  refine ⟨fun hb => ?_, ?_⟩
  · have : waits q g = [] := by unfold waits; rw [hb]; rfl
    rw [this, List.append_nil] at h2
    exact h2.symm
  · match hx : waits q g with
    | [] => rw [hx, List.append_nil] at h2; exact Or.inl h2.symm
    | [c] => rw [hx] at h2; exact Or.inr ⟨c, h2⟩
    | _ :: _ :: _ => rw [hx] at h1; simp at h1

end Verif.Vis
