import Verif.Vis.Trace
import Mathlib.Algebra.BigOperators.Group.Finset.Basic
import Mathlib.Algebra.BigOperators.Group.List.Basic
import Mathlib.Data.BitVec
/-!
# Property C67: no update of a counter is lost
-/
namespace Verif.Vis
open Verif.Sobj Verif.Rma
open Verif.Order (St Pend Cfg Op)
open Verif.Amo (TyIdx Fp)

/-- the word of type `ty` at address `a`, little endian -/
def wordAt (m : IMem) (a : Int) (ty : TyIdx) : BitVec (8 * ty.bytes) :=
  BitVec.ofNat (8 * ty.bytes) (Mem.load (fun n => m (a + n)) 0 ty.bytes)

/-- what the AMO calls of a history add to the word of type `ty` at address `a` of PE `t` -/
def added (t : Nat) (a : Int) (ty : TyIdx) : List Ev → BitVec (8 * ty.bytes)
  | [] => 0
  | .amo _ t' _ _ a' ty' api _ :: l =>
    (if t' = t ∧ a' = a ∧ ty' = ty then BitVec.ofNat (8 * ty.bytes) (api.addend.getD 0) else 0) + added t a ty l
  | .put _ _ _ _ _ _ _ :: l => added t a ty l
  | .get _ _ _ _ _ _ _ :: l => added t a ty l
  | .store _ _ _ :: l => added t a ty l
  | .poll _ _ _ _ :: l => added t a ty l
  | .touch _ _ :: l  => added t a ty l
  | .call _ _ :: l => added t a ty l
  | .enter _ :: l => added t a ty l
  | .leave _ :: l => added t a ty l
  | .done _ _ _ :: l => added t a ty l
  | .tau :: l => added t a ty l

theorem added_append (t : Nat) (a : Int) (ty : TyIdx) (l1 l2 : List Ev) :
    added t a ty (l1 ++ l2) = added t a ty l1 + added t a ty l2 := by
  induction l1 with
  | nil => simp [added]
  | cons e l ih => cases e <;> simp only [List.cons_append, added, ih, add_assoc]

/-- what an access adds to the word -/
def av (t : Nat) (a : Int) (ty : TyIdx) : Atom → BitVec (8 * ty.bytes)
  | .set _ _ _ => 0
  | .mv _ _ _ _ => 0
  | .upd d a' ty' api _ => if d = t ∧ a' = a ∧ ty' = ty then BitVec.ofNat (8 * ty.bytes) (api.addend.getD 0) else 0

def avs (t : Nat) (a : Int) (ty : TyIdx) (l : List Atom) : BitVec (8 * ty.bytes) := (l.map (av t a ty)).sum

def flyv (t : Nat) (a : Int) (ty : TyIdx) (l : List Fly) : BitVec (8 * ty.bytes) := (l.map (fun x => avs t a ty x.todo)).sum

/-- what is in flight will add -/
def total (S : Sys) (t : Nat) (a : Int) (ty : TyIdx) (g : G) : BitVec (8 * ty.bytes) :=
  ∑ r ∈ Finset.range S.npes, (flyv t a ty (g.fly r) + avs t a ty (g.busy r))

theorem bytes_pos (ty : TyIdx) : 0 < ty.bytes := by cases ty <;> decide

/-- only additions to the whole word are in flight -/
def Adds (g : G) (t : Nat) (a : Int) (ty : TyIdx) : Prop := ∀ b, Flies g b → ∀ k : Nat × Int, k.1 = t → a ≤ k.2 → k.2 < a + ty.bytes →
  b.writes k → ∃ api am v, b = .upd t a ty api am ∧ api.addend = some v

/-- the same for an event -/
def Ev.IsAdd (t : Nat) (a : Int) (ty : TyIdx) (e : Ev) : Prop := ∃ p ctx addr api ep v, e = .amo p t ctx addr a ty api ep ∧
  api.addend = some v

/-- does the event write a byte of the word? -/
def Ev.touches (t : Nat) (a : Int) (ty : TyIdx) (e : Ev) : Prop := ∃ y : Int, a ≤ y ∧ y < a + ty.bytes ∧ e.writes (t, y)

theorem wordAt_congr {m m' : IMem} {a : Int} {ty : TyIdx} (h : ∀ y, a ≤ y → y < a + ty.bytes → m y = m' y) :
    wordAt m a ty = wordAt m' a ty := by
  unfold wordAt
  congr 1
  exact Mem.load_congr (fun x h1 h2 => h _ (by omega) (by omega))

/-- what the handler does to the word if it does not fail -/
theorem am_add {fp : Fp} {junk m : Mem} {ty : TyIdx} {api : Amo.Api} {r : Mem × Nat} {v : Nat} (hv : api.addend = some v)
    (h : Amo.am fp junk m 0 ty api = .ok r) (ht : ty ∈ Amo.stdTypes) :
    BitVec.ofNat (8 * ty.bytes) (r.1.load 0 ty.bytes) = BitVec.ofNat (8 * ty.bytes) (m.load 0 ty.bytes) + BitVec.ofNat (8 * ty.bytes) v := by
  have key : ∀ z, Amo.opOf fp ty .sum (v % 256 ^ ty.bytes) (m.load 0 ty.bytes) = .ok z →
      BitVec.ofNat (8 * ty.bytes) z = BitVec.ofNat (8 * ty.bytes) (m.load 0 ty.bytes) + BitVec.ofNat (8 * ty.bytes) v := by
    intro z hz
    have hz : z = (m.load 0 ty.bytes + v % 256 ^ ty.bytes) % 256 ^ ty.bytes := by
      unfold Amo.opOf at hz
      rcases (Amo.width_eq ht).2 with e | e
      · simp only [e, Amo.opSint] at hz
        split at hz
        · cases hz
          exact Amo.sum_mod _ _ _
        · cases hz
      · simp only [e, Amo.opUint] at hz
        cases hz
        rfl
    rw [hz, Amo.ofNat_mod, BitVec.ofNat_add, Amo.ofNat_mod]
  have post : ∀ {m' : Mem}, Amo.amPost fp junk m 0 ty ty.bytes .sum v = .ok m' →
      BitVec.ofNat (8 * ty.bytes) (m'.load 0 ty.bytes) =
        BitVec.ofNat (8 * ty.bytes) (m.load 0 ty.bytes) + BitVec.ofNat (8 * ty.bytes) v := by
    intro m' h
    unfold Amo.amPost Amo.postCb at h
    simp only [(Amo.width_eq ht).1, Amo.load_fill] at h
    obtain ⟨z, hz, h⟩ := bind_ok' h
    cases h
    rw [Mem.load_store, Amo.ofNat_mod]
    exact key z hz
  have fetch : Amo.amFetch fp junk m 0 ty ty.bytes .sum v = .ok r →
      BitVec.ofNat (8 * ty.bytes) (r.1.load 0 ty.bytes) =
        BitVec.ofNat (8 * ty.bytes) (m.load 0 ty.bytes) + BitVec.ofNat (8 * ty.bytes) v := by
    intro h
    unfold Amo.amFetch Amo.fetchCb at h
    rw [if_pos (by decide)] at h
    simp only [(Amo.width_eq ht).1, Amo.load_fill] at h
    obtain ⟨y, h1, h⟩ := bind_ok' h
    obtain ⟨z, hz, h1⟩ := bind_ok' h1
    cases h1
    cases h
    dsimp only
    rw [Mem.load_store, Amo.ofNat_mod]
    exact key z hz
  cases api <;> simp only [Amo.Api.addend, Option.some.injEq, reduceCtorEq] at hv
  · subst hv; exact fetch h
  · subst hv
    obtain ⟨y, h1, h⟩ := bind_ok' h
    cases h
    exact post h1
  · subst hv; exact fetch h
  · subst hv
    obtain ⟨y, h1, h⟩ := bind_ok' h
    cases h
    exact post h1

theorem direct_add {m : Mem} {ty : TyIdx} {api : Amo.Api} {v : Nat} (hv : api.addend = some v) :
    BitVec.ofNat (8 * ty.bytes) ((Amo.direct m 0 ty api).1.load 0 ty.bytes) =
      BitVec.ofNat (8 * ty.bytes) (m.load 0 ty.bytes) + BitVec.ofNat (8 * ty.bytes) v := by
  cases api <;> simp only [Amo.Api.addend, Option.some.injEq, reduceCtorEq] at hv <;> subst hv <;>
    simp only [Amo.direct, Amo.mpiFetchOp, Amo.mpiOp, Mem.load_store, Amo.ofNat_mod, BitVec.ofNat_add]

theorem wordAt_unview (m : IMem) (a : Int) (ty : TyIdx) (x : Mem) :
    wordAt (unview m a x) a ty = BitVec.ofNat (8 * ty.bytes) (x.load 0 ty.bytes) := by
  unfold wordAt
  congr 1
  refine Mem.load_congr (fun n _ _ => ?_)
  unfold unview
  rw [if_pos (by omega)]
  congr 1
  omega

theorem wordAt_view (m : IMem) (a : Int) (ty : TyIdx) :
    wordAt m a ty = BitVec.ofNat (8 * ty.bytes) ((view m a).load 0 ty.bytes) := rfl

/-- performing an access adds its contribution to the word -/
theorem perform_word {S : Sys} {g : G} {t : Nat} {a : Int} {ty : TyIdx} (ht : ty ∈ Amo.stdTypes) (ha : Adds g t a ty) {b : Atom}
    (hb : Flies g b) {m' : Mems} (e : b.perform S.fp S.junk g.mem = .ok m') :
    wordAt (m' t) a ty = wordAt (g.mem t) a ty + av t a ty b := by
  by_cases hw : ∃ k : Nat × Int, k.1 = t ∧ a ≤ k.2 ∧ k.2 < a + ty.bytes ∧ b.writes k
  · obtain ⟨k, h1, h2, h3, h4⟩ := hw
    obtain ⟨api, am, v, rfl, hv⟩ := ha b hb k h1 h2 h3 h4
    have hav : av t a ty (.upd t a ty api am) = BitVec.ofNat (8 * ty.bytes) v := by simp [av, hv]
    rw [hav]
    unfold Atom.perform at e
    dsimp only at e
    split at e
    · obtain ⟨x, h1, e⟩ := bind_ok' e
      cases e
      rw [Function.update_self, wordAt_unview, wordAt_view]
      exact am_add hv h1 ht
    · cases e
      rw [Function.update_self, wordAt_unview, wordAt_view]
      exact direct_add hv
  · have h0 : av t a ty b = 0 := by
      cases b with
      | set d a' v => rfl
      | mv s sa d a' => rfl
      | upd d a' ty' api am =>
        dsimp only [av]
        split
        · rename_i h
          obtain ⟨rfl, rfl, rfl⟩ := h
          exfalso
          have := bytes_pos ty'
          exact hw ⟨(d, a'), rfl, le_refl _, by dsimp only; omega, rfl, le_refl _, by dsimp only; omega⟩
        · rfl
    rw [h0, add_zero]
    refine wordAt_congr (fun y h1 h2 => ?_)
    exact perform_frame (k := (t, y)) e (fun h => hw ⟨(t, y), rfl, h1, h2, h⟩)

theorem avs_append (t : Nat) (a : Int) (ty : TyIdx) (l1 l2 : List Atom) : avs t a ty (l1 ++ l2) = avs t a ty l1 + avs t a ty l2 := by
  simp [avs]

theorem flyv_append (t : Nat) (a : Int) (ty : TyIdx) (l1 l2 : List Fly) : flyv t a ty (l1 ++ l2) = flyv t a ty l1 + flyv t a ty l2 := by
  simp [flyv]

theorem flyv_settle (t : Nat) (a : Int) (ty : TyIdx) (fl : List Fly) (s' : St) (d : Done fl s') :
    flyv t a ty (settle fl s') = flyv t a ty fl := by
  induction fl with
  | nil => rfl
  | cons x l ih =>
    have ih := ih (fun y hy => d y (List.mem_cons_of_mem _ hy))
    unfold settle at ih ⊢
    rw [List.filter_cons]
    split
    · unfold flyv at ih ⊢
      simp only [List.map_cons, List.sum_cons, ih]
    · rename_i h
      have hx : x.todo = [] := d x (List.mem_cons_self ..) (by simpa using h)
      rw [ih]
      unfold flyv
      simp [hx, avs]

/-- changing what one PE has in flight -/
theorem total_upd {S : Sys} {t : Nat} {a : Int} {ty : TyIdx} {g g' : G} {p : Nat} (hp : p < S.npes) {δ : BitVec (8 * ty.bytes)}
    (ho : ∀ r, r ≠ p → g'.fly r = g.fly r ∧ g'.busy r = g.busy r)
    (hd : flyv t a ty (g'.fly p) + avs t a ty (g'.busy p) = flyv t a ty (g.fly p) + avs t a ty (g.busy p) + δ) :
    total S t a ty g' = total S t a ty g + δ := by
  unfold total
  rw [← Finset.add_sum_erase _ _ (Finset.mem_range.mpr hp), ← Finset.add_sum_erase (Finset.range S.npes) _ (Finset.mem_range.mpr hp),
    hd]
  have : ∑ r ∈ (Finset.range S.npes).erase p, (flyv t a ty (g'.fly r) + avs t a ty (g'.busy r)) =
      ∑ r ∈ (Finset.range S.npes).erase p, (flyv t a ty (g.fly r) + avs t a ty (g.busy r)) := by
    refine Finset.sum_congr rfl (fun r hr => ?_)
    obtain ⟨h1, h2⟩ := ho r (Finset.ne_of_mem_erase hr)
    rw [h1, h2]
  rw [this]
  ac_rfl

theorem total_after {S : Sys} {t : Nat} {a : Int} {ty : TyIdx} {g : G} {p : Nat} (hf : Free S g p) {s' : St} {new : List Atom}
    (d : Done (g.fly p) s') : total S t a ty (after g p s' new) = total S t a ty g + avs t a ty new := by
  refine total_upd hf.1 (fun r hr => ?_) ?_
  · simp only [after, upd_at, if_neg hr, and_self]
  · simp only [after, upd_at, if_true, flyv_append, flyv_settle _ _ _ _ _ d, hf.2.2]
    cases pushed (g.pe p) s' with
    | none => simp [flyv, avs]
    | some pd => simp [flyv, avs]

theorem total_afterRet {S : Sys} {t : Nat} {a : Int} {ty : TyIdx} {g : G} {p : Nat} (hf : Free S g p) {s' : St} {new : List Atom}
    (d : Done (g.fly p) s') : total S t a ty (afterRet g p s' new) = total S t a ty g + avs t a ty new := by
  refine total_upd hf.1 (fun r hr => ?_) ?_
  · simp only [afterRet, after, upd_at, if_neg hr, and_self]
  · simp only [afterRet, after, upd_at, if_true, flyv_append, flyv_settle _ _ _ _ _ d, hf.2.2]
    cases pushed (g.pe p) s' with
    | none => simp [flyv, avs]
    | some pd => simp [flyv, avs]

theorem avs_zero {t : Nat} {a : Int} {ty : TyIdx} {l : List Atom} (h : ∀ b ∈ l, av t a ty b = 0) : avs t a ty l = 0 := by
  unfold avs
  induction l with
  | nil => rfl
  | cons x l ih =>
    simp only [List.map_cons, List.sum_cons]
    rw [h x (List.mem_cons_self ..), ih (fun b hb => h b (List.mem_cons_of_mem _ hb)), add_zero]

theorem adds_step {S : Sys} {t : Nat} {a : Int} {ty : TyIdx} {g g' : G} {e : Ev} (ha : Adds g t a ty) (h : Step S g e g')
    (he : e.touches t a ty → e.IsAdd t a ty) : Adds g' t a ty := by
  rintro b ⟨r, own, hb⟩ k h1 h2 h3 hw
  rcases at_step h hb with hb' | ⟨_, hb'⟩
  · exact ha b ⟨r, own, hb'⟩ k h1 h2 h3 hw
  · obtain ⟨p, ctx, addr, api, ep, v, rfl, hv⟩ := he ⟨k.2, h2, h3, by rw [← h1]; exact hb' k hw⟩
    cases h with
    | amo p tgt ctx addr r' ty api gpu mode s' hf hm hty hk e hr d =>
      rcases at_after hb with h | ⟨_, _, h⟩
      · exact ha b ⟨r, own, h⟩ k h1 h2 h3 hw
      · rw [List.mem_singleton] at h
        subst h
        exact ⟨api, _, v, rfl, hv⟩
    | amoRet p tgt ctx addr r' ty api gpu mode s' hf hm hty hk e hr d =>
      rcases at_afterRet hb with h | ⟨_, _, h⟩
      · exact ha b ⟨r, own, h⟩ k h1 h2 h3 hw
      · rw [List.mem_singleton] at h
        subst h
        exact ⟨api, _, v, rfl, hv⟩

/-- word and contributions in flight: what an event adds -/
theorem sum_step {S : Sys} {t : Nat} {a : Int} {ty : TyIdx} (ht : ty ∈ Amo.stdTypes) {g g' : G} {e : Ev} (ha : Adds g t a ty)
    (h : Step S g e g') (he : e.touches t a ty → e.IsAdd t a ty) :
    wordAt (g'.mem t) a ty + total S t a ty g' = wordAt (g.mem t) a ty + total S t a ty g + added t a ty [e] := by
  cases h with
  | put p tgt nbi ctx addr src n gpu mode oc tc oty tty xs s' hf hm e hx d =>
    rw [total_after hf d, avs_zero (fun b hb => by
      obtain ⟨y, _, rfl⟩ := List.mem_map.mp hb
      cases nbi <;> rfl)]
    simp only [added, add_zero]
    rfl
  | get p tgt nbi ctx addr src n gpu mode oc tc oty tty xs s' hf hm e hx d =>
    rw [total_after hf d, avs_zero (fun b hb => by
      obtain ⟨y, _, rfl⟩ := List.mem_map.mp hb
      rfl)]
    simp only [added, add_zero]
    rfl
  | amo p tgt ctx addr r ty' api gpu mode s' hf hm hty hk e hr d =>
    rw [total_after hf d]
    simp only [added, avs, List.map_cons, List.map_nil, List.sum_cons, List.sum_nil, add_zero, av]
    rw [← add_assoc]
    rfl
  | amoRet p tgt ctx addr r ty' api gpu mode s' hf hm hty hk e hr d =>
    rw [total_afterRet hf d]
    simp only [added, avs, List.map_cons, List.map_nil, List.sum_cons, List.sum_nil, add_zero, av]
    rw [← add_assoc]
    rfl
  | store p a' v hf =>
    have : wordAt ((Function.update g.mem p (Function.update (g.mem p) a' v)) t) a ty = wordAt (g.mem t) a ty := by
      refine wordAt_congr (fun y h1 h2 => ?_)
      rw [upd_at]
      split
      · rename_i hp
        subst hp
        rw [Function.update_of_ne]
        rintro rfl
        obtain ⟨_, _, _, _, _, _, h, _⟩ := he ⟨y, h1, h2, rfl⟩
        cases h
      · rfl
    simp only [added, add_zero]
    rw [this]
    rfl
  | poll p addr r n mode hf hm hr => simp only [added, add_zero]
  | touch p ws hf =>
    have : wordAt ((touched g.mem ws) t) a ty = wordAt (g.mem t) a ty := by
      refine wordAt_congr (fun y h1 h2 => ?_)
      refine touched_other (k := (t, y)) fun w hw h => ?_
      obtain ⟨_, _, _, _, _, _, h, _⟩ := he ⟨y, h1, h2, w, hw, h⟩
      cases h
    simp only [added, add_zero]
    rw [this]
    rfl
  | call p op s' hf l hop e d =>
    rw [total_after hf d]
    simp only [added, avs, List.map_nil, List.sum_nil, add_zero]
    rfl
  | enter p s' hf e d =>
    have : total S t a ty { after g p s' [] with arr := Function.update g.arr p (g.arr p + 1) } =
        total S t a ty (after g p s' []) := rfl
    rw [this, total_after hf d]
    simp only [added, avs, List.map_nil, List.sum_nil, add_zero]
    rfl
  | leave p hp h0 ha' =>
    simp only [added, add_zero]
    rfl
  | perform q l1 l2 pd t1 t2 b m' hq hl e =>
    have hw := perform_word ht ha ⟨q, some pd, Or.inl ⟨⟨pd, t1 ++ b :: t2⟩, by rw [hl]; simp, rfl, by simp⟩⟩ e
    have htot : total S t a ty g = total S t a ty { g with mem := m', fly := Function.update g.fly q (l1 ++ ⟨pd, t1 ++ t2⟩ :: l2) } +
        av t a ty b := by
      refine total_upd hq (fun r hr => ?_) ?_
      · simp only [upd_at, if_neg hr, and_self]
      · simp only [upd_at, if_true, hl]
        rw [flyv_append, flyv_append]
        unfold flyv
        simp only [List.map_cons, List.sum_cons, avs_append]
        simp only [avs, List.map_cons, List.sum_cons]
        ac_rfl
    rw [htot]
    dsimp only
    rw [hw]
    simp only [added, add_zero]
    ac_rfl
  | performBusy q t1 t2 b m' hq hl e =>
    have hw := perform_word ht ha ⟨q, none, Or.inr ⟨rfl, by rw [hl]; simp⟩⟩ e
    have htot : total S t a ty g = total S t a ty { g with mem := m', busy := Function.update g.busy q (t1 ++ t2) } +
        av t a ty b := by
      refine total_upd hq (fun r hr => ?_) ?_
      · simp only [upd_at, if_neg hr, and_self]
      · simp only [upd_at, if_true, hl, avs_append]
        simp only [avs, List.map_cons, List.sum_cons]
        ac_rfl
    rw [htot]
    dsimp only
    rw [hw]
    simp only [added, add_zero]
    ac_rfl
  | fin q done hq d =>
    have : total S t a ty { g with
        pe := Function.update g.pe q ((g.pe q).drop done)
        fly := Function.update g.fly q (settle (g.fly q) ((g.pe q).drop done)) } = total S t a ty g + 0 := by
      refine total_upd hq (fun r hr => ?_) ?_
      · simp only [upd_at, if_neg hr, and_self]
      · simp only [upd_at, if_true, flyv_settle _ _ _ _ _ d, add_zero]
    rw [this]
    simp only [added, add_zero]

theorem sum_run {S : Sys} {t : Nat} {a : Int} {ty : TyIdx} (ht : ty ∈ Amo.stdTypes) {g g' : G} {l : List Ev} (ha : Adds g t a ty)
    (h : Run S g l g') (he : ∀ e ∈ l, e.touches t a ty → e.IsAdd t a ty) :
    wordAt (g'.mem t) a ty + total S t a ty g' = wordAt (g.mem t) a ty + total S t a ty g + added t a ty l := by
  induction h with
  | nil g => simp [added]
  | @cons g1 g2 g3 e l s r ih =>
    rw [ih (adds_step ha s (he _ (List.mem_cons_self ..))) (fun e h => he e (List.mem_cons_of_mem _ h)),
      sum_step ht ha s (he _ (List.mem_cons_self ..)), show e :: l = [e] ++ l from rfl, added_append]
    ac_rfl

theorem total_zero {S : Sys} {t : Nat} {a : Int} {ty : TyIdx} {g : G}
    (h : ∀ b, Flies g b → ¬ b.writes (t, a)) : total S t a ty g = 0 := by
  have hz : ∀ b, Flies g b → av t a ty b = 0 := by
    intro b hb
    cases b with
    | set d a' v => rfl
    | mv s sa d a' => rfl
    | upd d a' ty' api am =>
      dsimp only [av]
      split
      · rename_i hh
        obtain ⟨rfl, rfl, rfl⟩ := hh
        exfalso
        have := bytes_pos ty'
        exact h _ hb ⟨rfl, le_refl _, by dsimp only; omega⟩
      · rfl
  unfold total
  refine Finset.sum_eq_zero (fun r _ => ?_)
  have h1 : flyv t a ty (g.fly r) = 0 := by
    unfold flyv
    refine List.sum_eq_zero (fun y hy => ?_)
    obtain ⟨x, hx, rfl⟩ := List.mem_map.mp hy
    exact avs_zero (fun b hb => hz b ⟨r, some x.pend, Or.inl ⟨x, hx, rfl, hb⟩⟩)
  have h2 : avs t a ty (g.busy r) = 0 := avs_zero (fun b hb => hz b ⟨r, none, Or.inr ⟨rfl, hb⟩⟩)
  rw [h1, h2, add_zero]

/-- C67. A counter (a word of any type of the AMO interface) on PE `t` that is only changed by `atomic_inc`, `atomic_add`,
`atomic_fetch_inc` and `atomic_fetch_add` of any PEs, in any number and interleaving, by MPI or by active message: once some PE
`p` has left a barrier that each PE entered after its last such call, the counter has grown by exactly the sum of the operands
(modulo the word size). Missing: counters in a space without dynamic windows, or AMOs on contexts (`Settled`). -/
theorem C67_sum_partial {S : Sys} {g0 g : G} (hr : Reach S g0) {l : List Ev} (h : Run S g0 l g) {t : Nat} {a : Int} {ty : TyIdx}
    (ht : ty ∈ Amo.stdTypes) (hn : ∀ y, a ≤ y → y < a + ty.bytes → NoWriter g0 (t, y)) {p : Nat} (hp : p < S.npes)
    (hl : ∀ e ∈ l, e.touches t a ty → e.IsAdd t a ty ∧ e.Settled S (g.lv p)) :
    wordAt (g.mem t) a ty = wordAt (g0.mem t) a ty + added t a ty l := by
  have hpos := bytes_pos ty
  have hi := gi_reach hr
  have ha0 : Adds g0 t a ty := fun b hb k h1 h2 h3 hw => absurd hw (by
    have := hn k.2 h2 h3 b hb
    rw [← h1] at this
    exact this)
  have hs := sum_run ht ha0 h (fun e he ht => (hl e he ht).1)
  have hz := total_zero (S := S) (ty := ty) (hn a (le_refl _) (by omega))
  have hw := noWriter_settled hi (hn a (le_refl _) (by omega)) h hp
    (fun e he hw => (hl e he ⟨a, le_refl _, by omega, hw⟩).2)
  have hz2 := total_zero (S := S) (ty := ty) hw
  rw [hz, hz2, add_zero, add_zero] at hs
  exact hs

end Verif.Vis
