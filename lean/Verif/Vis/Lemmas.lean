import Verif.Vis.Model
import Verif.Amo.Props
/-!
# Visibility: frame properties and the invariant of the whole system
-/
namespace Verif.Vis
open Verif.Sobj Verif.Rma
open Verif.Order (St Pend Cfg Op upd_cases)
open Verif.Amo (TyIdx Fp)

theorem bind_ok' {α β : Type} {r : Res α} {f : α → Res β} {y : β} (h : r.bind f = .ok y) : ∃ x, r = .ok x ∧ f x = .ok y := by
  cases r with
  | ok x => exact ⟨x, rfl, h⟩
  | abort => cases h
  | ub => cases h
  | hang => cases h

theorem width_le (ty : TyIdx) : ty.kind.width ≤ ty.bytes := by cases ty <;> decide

theorem postCb_frame {fp : Fp} {m m' v : Mem} {dest : Nat} {ty : TyIdx} {op : Amo.OpIdx}
    (h : Amo.postCb fp m dest ty op v = .ok m') {x : Nat} (hx : x < dest ∨ dest + ty.bytes ≤ x) : m' x = m x := by
  unfold Amo.postCb at h
  obtain ⟨y, _, h⟩ := bind_ok' h
  cases h
  have := width_le ty
  exact Mem.store_frame _ _ _ _ _ (by omega)

theorem amFetch_frame {fp : Fp} {junk m : Mem} {dest : Nat} {ty : TyIdx} {b : Nat} {op : Amo.OpIdx} {v : Nat} {r : Mem × Nat}
    (h : Amo.amFetch fp junk m dest ty b op v = .ok r) {x : Nat} (hx : x < dest ∨ dest + ty.bytes ≤ x) : r.1 x = m x := by
  unfold Amo.amFetch Amo.fetchCb at h
  obtain ⟨y, h1, h⟩ := bind_ok' h
  obtain ⟨z, _, h1⟩ := bind_ok' h1
  cases h1
  cases h
  have := width_le ty
  exact Mem.store_frame _ _ _ _ _ (by omega)

theorem amCswap_frame {fp : Fp} {junk m : Mem} {dest : Nat} {ty : TyIdx} {b c v : Nat} {r : Mem × Nat}
    (h : Amo.amCswap fp junk m dest ty b c v = .ok r) {x : Nat} (hx : x < dest ∨ dest + ty.bytes ≤ x) : r.1 x = m x := by
  unfold Amo.amCswap Amo.cswapCb at h
  obtain ⟨y, h1, h⟩ := bind_ok' h
  obtain ⟨z, _, h1⟩ := bind_ok' h1
  cases h1
  cases h
  have := width_le ty
  dsimp only
  split
  · exact Mem.store_frame _ _ _ _ _ (by omega)
  · rfl

/-- an AMO by a handler changes nothing outside the word -/
theorem am_frame {fp : Fp} {junk m : Mem} {dest : Nat} {ty : TyIdx} {api : Amo.Api} {r : Mem × Nat}
    (h : Amo.am fp junk m dest ty api = .ok r) {x : Nat} (hx : x < dest ∨ dest + ty.bytes ≤ x) : r.1 x = m x := by
  have post : ∀ {op v}, ((Amo.amPost fp junk m dest ty ty.bytes op v).bind fun x => .ok (x, 0)) = .ok r → r.1 x = m x := by
    intro op v h
    obtain ⟨y, h1, h⟩ := bind_ok' h
    cases h
    exact postCb_frame h1 hx
  cases api <;> first | exact amFetch_frame h hx | exact post h | exact amCswap_frame h hx

theorem direct_frame (m : Mem) (dest : Nat) (ty : TyIdx) (api : Amo.Api) {x : Nat} (hx : x < dest ∨ dest + ty.bytes ≤ x) :
    (Amo.direct m dest ty api).1 x = m x := by
  cases api <;> simp only [Amo.direct, Amo.mpiFetchOp, Amo.mpiCas] <;> first
    | exact Mem.store_frame _ _ _ _ _ hx
    | (split
       · exact Mem.store_frame _ _ _ _ _ hx
       · rfl)

theorem unview_frame {m : IMem} {a : Int} {x : Mem} {k : Nat} (hx : ∀ n, k ≤ n → x n = view m a n) {y : Int}
    (hy : ¬ (a ≤ y ∧ y < a + k)) : unview m a x y = m y := by
  unfold unview
  split
  · rw [hx _ (by omega)]
    unfold view
    congr 1
    omega
  · rfl

/-- performing an access changes only what it writes -/
theorem perform_frame {fp : Fp} {junk : Mem} {m m' : Mems} {a : Atom} (h : a.perform fp junk m = .ok m') {k : Nat × Int}
    (hk : ¬ a.writes k) : m' k.1 k.2 = m k.1 k.2 := by
  have upd : ∀ d (f : IMem), (k.1 = d → f k.2 = m d k.2) → (Function.update m d f) k.1 k.2 = m k.1 k.2 := by
    intro d f hf
    by_cases e : k.1 = d
    · subst e; rw [Function.update_self, hf rfl]
    · rw [Function.update_of_ne e]
  cases a with
  | set d a v =>
    cases h
    refine upd _ _ fun e => Function.update_of_ne (fun e2 => hk ?_) _ _
    exact Prod.ext e e2
  | mv s sa d a =>
    cases h
    refine upd _ _ fun e => Function.update_of_ne (fun e2 => hk ?_) _ _
    exact Prod.ext e e2
  | upd d a ty api am =>
    unfold Atom.perform at h
    dsimp only at h
    split at h
    · obtain ⟨x, h1, h⟩ := bind_ok' h
      cases h
      refine upd _ _ fun e => unview_frame (k := ty.bytes) (fun n hn => am_frame h1 (by omega)) ?_
      exact fun e2 => hk ⟨e, e2⟩
    · cases h
      refine upd _ _ fun e => unview_frame (k := ty.bytes) (fun n hn => direct_frame _ _ _ _ (by omega)) ?_
      exact fun e2 => hk ⟨e, e2⟩

/-- the access is still to be performed, for PE `r`: it belongs to the operation in flight `own`, or (`none`) to the blocking
call the PE is in -/
def At (g : G) (a : Atom) (r : Nat) (own : Option Pend) : Prop :=
  (∃ x ∈ g.fly r, own = some x.pend ∧ a ∈ x.todo) ∨ (own = none ∧ a ∈ g.busy r)

/-- the access is still to be performed -/
def Flies (g : G) (a : Atom) : Prop := ∃ r own, At g a r own

theorem upd_at {α : Type} (f : Nat → α) (p q : Nat) (v : α) : Function.update f p v q = if q = p then v else f q := by
  by_cases h : q = p
  · subst h; simp
  · simp [h]

/-- bytes that are not named stay -/
theorem touched_other {ws : List (Nat × Int × BitVec 8)} {m : Mems} {k : Nat × Int} (h : ∀ w ∈ ws, ¬ (w.1 = k.1 ∧ w.2.1 = k.2)) :
    touched m ws k.1 k.2 = m k.1 k.2 := by
  induction ws generalizing m with
  | nil => rfl
  | cons w ws ih =>
    have h0 := h w (List.mem_cons_self ..)
    show touched _ ws k.1 k.2 = _
    rw [ih fun v hv => h v (List.mem_cons_of_mem _ hv), upd_at]
    split
    · rename_i e
      rw [Function.update_of_ne (fun e2 => h0 ⟨e.symm, e2.symm⟩), e]
    · rfl

/-- what is in flight after a call: what was before, and the call's own accesses -/
theorem fly_after {g : G} {p : Nat} {s' : St} {new : List Atom} {q : Nat} {x : Fly} (hx : x ∈ (after g p s' new).fly q) :
    (x ∈ g.fly q ∧ (q = p → x.pend ∈ s'.pend)) ∨ (q = p ∧ ∃ pd, pushed (g.pe p) s' = some pd ∧ x = ⟨pd, new⟩) := by
  unfold after at hx
  simp only [upd_at] at hx
  split at hx
  · rename_i e
    subst e
    rcases List.mem_append.mp hx with h | h
    · unfold settle at h
      rw [List.mem_filter] at h
      exact Or.inl ⟨h.1, fun _ => by simpa using h.2⟩
    · cases hp : pushed (g.pe q) s' with
      | none => rw [hp] at h; cases h
      | some pd =>
        rw [hp] at h
        exact Or.inr ⟨rfl, pd, rfl, by simpa using h⟩
  · rename_i e
    exact Or.inl ⟨hx, fun h => absurd h e⟩

theorem busy_after {g : G} {p : Nat} {s' : St} {new : List Atom} {q : Nat} {a : Atom} (hx : a ∈ (after g p s' new).busy q) :
    (q ≠ p ∧ a ∈ g.busy q) ∨ (q = p ∧ pushed (g.pe p) s' = none ∧ a ∈ new) := by
  unfold after at hx
  simp only [upd_at] at hx
  split at hx
  · rename_i e
    cases hp : pushed (g.pe p) s' with
    | none => rw [hp] at hx; exact Or.inr ⟨e, rfl, hx⟩
    | some pd => rw [hp] at hx; cases hx
  · rename_i e
    exact Or.inl ⟨e, hx⟩

theorem at_after {g : G} {p : Nat} {s' : St} {new : List Atom} {a : Atom} {r : Nat} {own : Option Pend}
    (h : At (after g p s' new) a r own) : At g a r own ∨ (r = p ∧ own = pushed (g.pe p) s' ∧ a ∈ new) := by
  rcases h with ⟨x, hx, ho, ha⟩ | ⟨ho, ha⟩
  · rcases fly_after hx with ⟨h, _⟩ | ⟨e, pd, hp, rfl⟩
    · exact Or.inl (Or.inl ⟨x, h, ho, ha⟩)
    · exact Or.inr ⟨e, by rw [ho, hp], ha⟩
  · rcases busy_after ha with ⟨_, h⟩ | ⟨e, hp, h⟩
    · exact Or.inl (Or.inr ⟨ho, h⟩)
    · exact Or.inr ⟨e, by rw [ho, hp], h⟩

theorem at_afterRet {g : G} {p : Nat} {s' : St} {new : List Atom} {a : Atom} {r : Nat} {own : Option Pend}
    (h : At (afterRet g p s' new) a r own) : At g a r own ∨ (r = p ∧ own = none ∧ a ∈ new) := by
  rcases h with ⟨x, hx, ho, ha⟩ | ⟨ho, ha⟩
  · rcases fly_after (new := []) hx with ⟨h, _⟩ | ⟨e, pd, hp, rfl⟩
    · exact Or.inl (Or.inl ⟨x, h, ho, ha⟩)
    · cases ha
  · simp only [afterRet, upd_at] at ha
    split at ha
    · rename_i e; exact Or.inr ⟨e, ho, ha⟩
    · exact Or.inl (Or.inr ⟨ho, ha⟩)

/-- the accesses made by an event -/
theorem at_step {S : Sys} {g g' : G} {e : Ev} (h : Step S g e g') {a : Atom} {r : Nat} {own : Option Pend} (ha : At g' a r own) :
    At g a r own ∨ (e.src ≠ none ∧ ∀ k, a.writes k → e.writes k) := by
  cases h with
  | put p tgt nbi ctx addr src n gpu mode oc tc oty tty xs s' hf hm e hx d =>
    rcases at_after ha with h | ⟨_, _, h⟩
    · exact Or.inl h
    · refine Or.inr ⟨by simp [Ev.src], ?_⟩
      obtain ⟨x, hx, rfl⟩ := List.mem_map.mp h
      intro k hk
      cases nbi
      · simp only [Bool.false_eq_true, if_false, Atom.writes] at hk
        subst hk
        exact ⟨rfl, x, hx, rfl⟩
      · simp only [if_true, Atom.writes] at hk
        subst hk
        exact ⟨rfl, x, hx, rfl⟩
  | get p tgt nbi ctx addr src n gpu mode oc tc oty tty xs s' hf hm e hx d =>
    rcases at_after ha with h | ⟨_, _, h⟩
    · exact Or.inl h
    · refine Or.inr ⟨by simp [Ev.src], ?_⟩
      obtain ⟨x, hx, rfl⟩ := List.mem_map.mp h
      intro k hk
      simp only [Atom.writes] at hk
      subst hk
      exact ⟨rfl, x, hx, rfl⟩
  | amo p tgt ctx addr r ty api gpu mode s' hf hm ht hk e hr d =>
    rcases at_after ha with h | ⟨_, _, h⟩
    · exact Or.inl h
    · refine Or.inr ⟨by simp [Ev.src], ?_⟩
      simp only [List.mem_singleton] at h
      subst h
      exact fun k hk => hk
  | amoRet p tgt ctx addr r ty api gpu mode s' hf hm ht hk e hr d =>
    rcases at_afterRet ha with h | ⟨_, _, h⟩
    · exact Or.inl h
    · refine Or.inr ⟨by simp [Ev.src], ?_⟩
      simp only [List.mem_singleton] at h
      subst h
      exact fun k hk => hk
  | store p a v hf => exact Or.inl ha
  | poll p addr r n mode hf hm hr => exact Or.inl ha
  | touch p ws hf => exact Or.inl ha
  | call p op s' hf l hop e d =>
    rcases at_after ha with h | ⟨_, _, h⟩
    · exact Or.inl h
    · cases h
  | enter p s' hf e d =>
    have ha' : At (after g p s' []) a r own := ha
    rcases at_after ha' with h | ⟨_, _, h⟩
    · exact Or.inl h
    · cases h
  | leave p hp h0 ha' => exact Or.inl ha
  | perform q l1 l2 pd t1 t2 b m' hq hl e =>
    left
    rcases ha with ⟨x, hx, ho, ha⟩ | ha
    · simp only [upd_at] at hx
      split at hx
      · rename_i er
        subst er
        rcases List.mem_append.mp hx with h | h
        · exact Or.inl ⟨x, by rw [hl]; exact List.mem_append.mpr (Or.inl h), ho, ha⟩
        · rcases List.mem_cons.mp h with rfl | h
          · refine Or.inl ⟨⟨pd, t1 ++ b :: t2⟩, by rw [hl]; simp, ho, ?_⟩
            rcases List.mem_append.mp ha with h | h
            · exact List.mem_append.mpr (Or.inl h)
            · exact List.mem_append.mpr (Or.inr (List.mem_cons_of_mem _ h))
          · exact Or.inl ⟨x, by rw [hl]; simp [h], ho, ha⟩
      · exact Or.inl ⟨x, hx, ho, ha⟩
    · exact Or.inr ha
  | performBusy q t1 t2 b m' hq hl e =>
    left
    rcases ha with ha | ⟨ho, ha⟩
    · exact Or.inl ha
    · simp only [upd_at] at ha
      split at ha
      · rename_i er
        subst er
        refine Or.inr ⟨ho, ?_⟩
        rw [hl]
        rcases List.mem_append.mp ha with h | h
        · exact List.mem_append.mpr (Or.inl h)
        · exact List.mem_append.mpr (Or.inr (List.mem_cons_of_mem _ h))
      · exact Or.inr ⟨ho, ha⟩
  | fin q done hq d =>
    left
    rcases ha with ⟨x, hx, ho, ha⟩ | ha
    · simp only [upd_at] at hx
      split at hx
      · rename_i er
        subst er
        exact Or.inl ⟨x, (List.mem_filter.mp hx).1, ho, ha⟩
      · exact Or.inl ⟨x, hx, ho, ha⟩
    · exact Or.inr ha

theorem flies_step {S : Sys} {g g' : G} {e : Ev} (h : Step S g e g') {a : Atom} (ha : Flies g' a) :
    Flies g a ∨ ∀ k, a.writes k → e.writes k := by
  obtain ⟨r, own, ha⟩ := ha
  rcases at_step h ha with h | h
  · exact Or.inl ⟨r, own, h⟩
  · exact Or.inr h.2

theorem keep_after {g : G} {p : Nat} {s' : St} {new : List Atom} (hb : g.busy p = []) (d : Done (g.fly p) s') {a : Atom} {r : Nat}
    {own : Option Pend} (h : At g a r own) : At (after g p s' new) a r own := by
  rcases h with ⟨x, hx, ho, ha⟩ | ⟨ho, ha⟩
  · refine Or.inl ⟨x, ?_, ho, ha⟩
    simp only [after, upd_at]
    split
    · rename_i e
      subst e
      refine List.mem_append.mpr (Or.inl (List.mem_filter.mpr ⟨hx, ?_⟩))
      by_contra hn
      have : x.todo = [] := d x hx (by simpa using hn)
      rw [this] at ha
      cases ha
    · exact hx
  · refine Or.inr ⟨ho, ?_⟩
    simp only [after, upd_at]
    split
    · rename_i e
      subst e
      rw [hb] at ha
      cases ha
    · exact ha

theorem keep_afterRet {g : G} {p : Nat} {s' : St} {new : List Atom} (hb : g.busy p = []) (d : Done (g.fly p) s') {a : Atom} {r : Nat}
    {own : Option Pend} (h : At g a r own) : At (afterRet g p s' new) a r own := by
  rcases h with h | ⟨ho, ha⟩
  · rcases keep_after (new := []) hb d (Or.inl h) with h' | ⟨ho, _⟩
    · exact Or.inl h'
    · obtain ⟨x, _, ho', _⟩ := h
      rw [ho'] at ho
      cases ho
  · refine Or.inr ⟨ho, ?_⟩
    simp only [afterRet, upd_at]
    split
    · rename_i e
      subst e
      rw [hb] at ha
      cases ha
    · exact ha

/-- an access stays to be performed until it is performed -/
theorem at_keep {S : Sys} {g g' : G} {e : Ev} (h : Step S g e g') {a : Atom} {r : Nat} {own : Option Pend} (ha : At g a r own) :
    At g' a r own ∨ a.perform S.fp S.junk g.mem = .ok g'.mem := by
  cases h with
  | put p tgt nbi ctx addr src n gpu mode oc tc oty tty xs s' hf hm e hx d => exact Or.inl (keep_after hf.2.2 d ha)
  | get p tgt nbi ctx addr src n gpu mode oc tc oty tty xs s' hf hm e hx d => exact Or.inl (keep_after hf.2.2 d ha)
  | amo p tgt ctx addr r ty api gpu mode s' hf hm ht hk e hr d => exact Or.inl (keep_after hf.2.2 d ha)
  | amoRet p tgt ctx addr r ty api gpu mode s' hf hm ht hk e hr d => exact Or.inl (keep_afterRet hf.2.2 d ha)
  | store p a v hf => exact Or.inl ha
  | poll p addr r n mode hf hm hr => exact Or.inl ha
  | touch p ws hf => exact Or.inl ha
  | call p op s' hf l hop e d => exact Or.inl (keep_after hf.2.2 d ha)
  | enter p s' hf e d => exact Or.inl (keep_after (new := []) hf.2.2 d ha)
  | leave p hp h0 ha' => exact Or.inl ha
  | perform q l1 l2 pd t1 t2 b m' hq hl e =>
    rcases ha with ⟨x, hx, ho, ha⟩ | ha
    · by_cases er : r = q
      · subst er
        have mem : ∀ y ∈ l1 ++ ⟨pd, t1 ++ t2⟩ :: l2, own = some y.pend → a ∈ y.todo →
            At { g with mem := m', fly := Function.update g.fly r (l1 ++ ⟨pd, t1 ++ t2⟩ :: l2) } a r own :=
          fun y hy h1 h2 => Or.inl ⟨y, by simp only [upd_at, if_true]; exact hy, h1, h2⟩
        rw [hl] at hx
        rcases List.mem_append.mp hx with h | h
        · exact Or.inl (mem x (by simp [h]) ho ha)
        · rcases List.mem_cons.mp h with rfl | h
          · rcases List.mem_append.mp ha with h | h
            · exact Or.inl (mem ⟨pd, t1 ++ t2⟩ (by simp) ho (by simp [h]))
            · rcases List.mem_cons.mp h with rfl | h
              · exact Or.inr e
              · exact Or.inl (mem ⟨pd, t1 ++ t2⟩ (by simp) ho (by simp [h]))
          · exact Or.inl (mem x (by simp [h]) ho ha)
      · exact Or.inl (Or.inl ⟨x, by simp only [upd_at, if_neg er]; exact hx, ho, ha⟩)
    · exact Or.inl (Or.inr ha)
  | performBusy q t1 t2 b m' hq hl e =>
    rcases ha with ha | ⟨ho, ha⟩
    · exact Or.inl (Or.inl ha)
    · by_cases er : r = q
      · subst er
        rw [hl] at ha
        have mem : a ∈ t1 ++ t2 → At { g with mem := m', busy := Function.update g.busy r (t1 ++ t2) } a r own :=
          fun h => Or.inr ⟨ho, by simp only [upd_at, if_true]; exact h⟩
        rcases List.mem_append.mp ha with h | h
        · exact Or.inl (mem (by simp [h]))
        · rcases List.mem_cons.mp h with rfl | h
          · exact Or.inr e
          · exact Or.inl (mem (by simp [h]))
      · exact Or.inl (Or.inr ⟨ho, by simp only [upd_at, if_neg er]; exact ha⟩)
  | fin q done hq d =>
    left
    rcases ha with ⟨x, hx, ho, ha⟩ | ha
    · refine Or.inl ⟨x, ?_, ho, ha⟩
      simp only [upd_at]
      split
      · rename_i er
        subst er
        refine List.mem_filter.mpr ⟨hx, ?_⟩
        by_contra hn
        have : x.todo = [] := d x hx (by simpa using hn)
        rw [this] at ha
        cases ha
      · exact hx
    · exact Or.inr ha

/-- a byte that changes is written by something in flight, or by a store of its PE -/
theorem mem_cases {S : Sys} {g g' : G} {e : Ev} (h : Step S g e g') {k : Nat × Int} (he : ¬ e.writes k) :
    g'.mem k.1 k.2 = g.mem k.1 k.2 ∨ ∃ b, Flies g b ∧ b.writes k ∧ b.perform S.fp S.junk g.mem = .ok g'.mem := by
  have key : ∀ b m', Flies g b → b.perform S.fp S.junk g.mem = .ok m' →
      m' k.1 k.2 = g.mem k.1 k.2 ∨ ∃ b, Flies g b ∧ b.writes k ∧ b.perform S.fp S.junk g.mem = .ok m' := by
    intro b m' hb e
    by_cases hw : b.writes k
    · exact Or.inr ⟨b, hb, hw, e⟩
    · exact Or.inl (perform_frame e hw)
  cases h with
  | put p tgt nbi ctx addr src n gpu mode oc tc oty tty xs s' hf hm e hx d => exact Or.inl rfl
  | get p tgt nbi ctx addr src n gpu mode oc tc oty tty xs s' hf hm e hx d => exact Or.inl rfl
  | amo p tgt ctx addr r ty api gpu mode s' hf hm ht hk e hr d => exact Or.inl rfl
  | amoRet p tgt ctx addr r ty api gpu mode s' hf hm ht hk e hr d => exact Or.inl rfl
  | store p a v hf =>
    left
    simp only [upd_at]
    split
    · rename_i e1
      rw [Function.update_of_ne (fun e2 => he (Prod.ext e1 e2)), e1]
    · rfl
  | poll p addr r n mode hf hm hr => exact Or.inl rfl
  | touch p ws hf => exact Or.inl (touched_other fun w hw h => he ⟨w, hw, h⟩)
  | call p op s' hf l hop e d => exact Or.inl rfl
  | enter p s' hf e d => exact Or.inl rfl
  | leave p hp h0 ha' => exact Or.inl rfl
  | perform q l1 l2 pd t1 t2 b m' hq hl e =>
    exact key b m' ⟨q, some pd, Or.inl ⟨⟨pd, t1 ++ b :: t2⟩, by rw [hl]; simp, rfl, by simp⟩⟩ e
  | performBusy q t1 t2 b m' hq hl e =>
    exact key b m' ⟨q, none, Or.inr ⟨rfl, by rw [hl]; simp⟩⟩ e
  | fin q done hq d => exact Or.inl rfl

theorem mem_step {S : Sys} {g g' : G} {e : Ev} (h : Step S g e g') {k : Nat × Int}
    (hw : ∀ a, Flies g a → ¬ a.writes k) (he : ¬ e.writes k) : g'.mem k.1 k.2 = g.mem k.1 k.2 := by
  rcases mem_cases h he with h | ⟨b, hb, hk, _⟩
  · exact h
  · exact absurd hk (hw b hb)

/-- nothing in flight writes the byte -/
def NoWriter (g : G) (k : Nat × Int) : Prop := ∀ a, Flies g a → ¬ a.writes k

theorem noWriter_step {S : Sys} {g g' : G} {e : Ev} (h : Step S g e g') {k : Nat × Int} (hw : NoWriter g k)
    (he : ¬ e.writes k) : NoWriter g' k ∧ g'.mem k.1 k.2 = g.mem k.1 k.2 := by
  refine ⟨fun a ha hk => ?_, mem_step h hw he⟩
  rcases flies_step h ha with h1 | h1
  · exact hw a h1 hk
  · exact he (h1 k hk)

theorem noWriter_run {S : Sys} {g g' : G} {l : List Ev} (h : Run S g l g') {k : Nat × Int} (hw : NoWriter g k)
    (he : ∀ e ∈ l, ¬ e.writes k) : NoWriter g' k ∧ g'.mem k.1 k.2 = g.mem k.1 k.2 := by
  induction h with
  | nil g => exact ⟨hw, rfl⟩
  | cons s r ih =>
    obtain ⟨h1, h2⟩ := noWriter_step s hw (he _ (List.mem_cons_self ..))
    obtain ⟨h3, h4⟩ := ih h1 (fun e h => he e (List.mem_cons_of_mem _ h))
    exact ⟨h3, h4.trans h2⟩

/-! ## The invariant of the whole system -/

/-- what `pushed` says about an issued operation -/
theorem pushed_issue {c : Cfg} {s s' : St} {ctx : Option (Nat × Nat)} {addr : BitVec 64} {n tgt : Nat} {k : Order.Kind} {gpu : Bool}
    (e : Order.step c s (.issue ctx addr n tgt k gpu) = .ok s') :
    (pushed s s' = none ∧ ((k.isRma = true ∧ n = 0) ∨ (c.isDirect k gpu = true ∧ k.leaves = false) ∨
      (c.isDirect k gpu = false ∧ k.amLeaves = false))) ∨
    ∃ pd, pushed s s' = some pd ∧ s'.pend = s.pend ++ [pd] ∧ pd.tgt = tgt ∧ pd.ctx = ctx ∧ pd.ep = s.ep ∧
      (∀ r, ctx = none → query (c.proc s) addr = some r → pd.obj = r.1) ∧ (pd.via = .am ↔ c.isDirect k gpu = false) ∧
      (k.leaves = true ∨ k.amLeaves = true) := by
  have same : ∀ t : St, t.pend.length ≤ s.pend.length → pushed s t = none := fun t h => by
    unfold pushed; rw [if_neg (by omega)]
  have one : ∀ (t : St) pd, t.pend = s.pend ++ [pd] → pushed s t = some pd := fun t pd h => by
    unfold pushed; rw [if_pos (by rw [h]; simp), h]; simp
  simp only [Order.step] at e
  unfold Order.issue at e
  split at e
  · rename_i h0
    cases e
    left
    exact ⟨same s (Nat.le_refl _), Or.inl (by simpa using h0)⟩
  · split at e
    · cases e
    · obtain ⟨r, hl, e⟩ := bind_ok' e
      have hobj : ∀ x, ctx = none → query (c.proc s) addr = some x → r.2 = x.1 := by
        intro x hc hq
        subst hc
        unfold Order.lookup at hl
        simp only [hq] at hl
        cases hl
        rfl
      split at e
      · rename_i hd
        unfold Order.issueDirect at e
        split at e
        · cases e
        · rename_i w _
          cases e
          have hpend : ∀ t, (Order.mark c k r.1 t).pend = t.pend := by
            intro t
            unfold Order.mark
            split
            · exact Order.pend_setFlag _ _ _
            · rfl
          cases hk : k.leaves with
          | false =>
            left
            refine ⟨same _ ?_, Or.inr (Or.inl ⟨hd, rfl⟩)⟩
            rw [hpend]
            simp
          | true =>
            right
            have hp : (Order.mark c k r.1 (if true = true then s.push ⟨.win w, tgt, ctx, r.2, s.ep⟩ else s)).pend =
                s.pend ++ [⟨.win w, tgt, ctx, r.2, s.ep⟩] := by rw [hpend]; rfl
            exact ⟨_, one _ _ hp, hp, rfl, rfl, rfl, hobj, by simp [hd], Or.inl rfl⟩
      · rename_i hd
        cases e
        have hd' : c.isDirect k gpu = false := by simpa using hd
        cases hk : k.amLeaves with
        | false =>
          left
          refine ⟨same _ ?_, Or.inr (Or.inr ⟨hd', rfl⟩)⟩
          simp only [Order.issueAm, hk, Bool.false_eq_true, if_false, Order.St.drop]
          exact List.length_filter_le _ _
        | true =>
          right
          have hp : (Order.issueAm s k r.2 ctx tgt).pend = s.pend ++ [⟨.am, tgt, ctx, r.2, s.ep⟩] := by
            simp only [Order.issueAm, hk, if_true]
            rfl
          exact ⟨_, one _ _ hp, hp, rfl, rfl, rfl, hobj, by simp [hd'], Or.inr rfl⟩

/-- invariant -/
structure GI (S : Sys) (g : G) : Prop where
  inv : ∀ p, Order.Inv (S.cf p) (g.pe p)
  ep : ∀ p, (g.pe p).ep = g.arr p
  cov : ∀ p, ∀ o ∈ (g.pe p).pend, Order.Covered (S.cf p) o → o.ep = g.arr p
  lv : ∀ p < S.npes, ∀ q < S.npes, g.lv p ≤ g.arr q
  /-- what is in flight is outstanding in the order model -/
  fly : ∀ p, ∀ x ∈ g.fly p, x.pend ∈ (g.pe p).pend
  /-- only PEs of the system have something in flight -/
  pes : ∀ p, S.npes ≤ p → g.fly p = [] ∧ g.busy p = []
  /-- a PE in a blocking call is outside the barrier -/
  busy : ∀ p, g.busy p ≠ [] → g.arr p = g.lv p

/-- a call keeps the invariant -/
theorem gi_after {S : Sys} {g : G} (ih : GI S g) {p : Nat} (hf : Free S g p) {op : Op} {s' : St} {new : List Atom}
    (l : Order.legal (g.pe p) op) (e : Order.step (S.cf p) (g.pe p) op = .ok s') : GI S (after g p s' new) := by
  obtain ⟨e1, e2⟩ := Order.ep_step (ih.inv p) e
  refine ⟨?_, ?_, ?_, ih.lv, ?_, ?_, ?_⟩
  · intro q
    simp only [after, upd_at]
    split
    · rename_i h; subst h; exact Order.step_inv (ih.inv q) l e
    · exact ih.inv q
  · intro q
    simp only [after, upd_at]
    split
    · rename_i h; subst h; rw [e1]; exact ih.ep q
    · exact ih.ep q
  · intro q o ho hc
    simp only [after, upd_at] at ho
    split at ho
    · rename_i h
      subst h
      rcases e2 o ho with h' | h'
      · exact ih.cov q o h' hc
      · rw [h']; exact ih.ep q
    · exact ih.cov q o ho hc
  · intro q x hx
    have hpe : (after g p s' new).pe q = if q = p then s' else g.pe q := by simp only [after, upd_at]
    rw [hpe]
    rcases fly_after hx with ⟨h, h2⟩ | ⟨rfl, pd, hp, rfl⟩
    · split
      · rename_i e; exact h2 e
      · exact ih.fly q x h
    · rw [if_pos rfl]
      unfold pushed at hp
      split at hp
      · exact List.mem_of_getLast? hp
      · cases hp
  · intro q hq
    have hne : q ≠ p := by have := hf.1; omega
    simp only [after, upd_at, if_neg hne]
    exact ih.pes q hq
  · intro q hb
    simp only [after, upd_at] at hb
    split at hb
    · rename_i h; subst h; exact hf.2.1
    · exact ih.busy q hb

theorem gi_afterRet {S : Sys} {g : G} (ih : GI S g) {p : Nat} (hf : Free S g p) {op : Op} {s' : St} {new : List Atom}
    (l : Order.legal (g.pe p) op) (e : Order.step (S.cf p) (g.pe p) op = .ok s') : GI S (afterRet g p s' new) := by
  have h := gi_after (new := []) ih hf l e
  refine ⟨h.inv, h.ep, h.cov, h.lv, h.fly, ?_, ?_⟩
  · intro q hq
    have hne : q ≠ p := by have := hf.1; omega
    refine ⟨(h.pes q hq).1, ?_⟩
    simp only [afterRet, upd_at, if_neg hne]
    exact (ih.pes q hq).2
  · intro q hb
    simp only [afterRet, upd_at] at hb
    split at hb
    · rename_i h; subst h; exact hf.2.1
    · exact ih.busy q hb

theorem gi_step {S : Sys} {g g' : G} {ev : Ev} (ih : GI S g) (h : Step S g ev g') : GI S g' := by
  cases h with
  | put p tgt nbi ctx addr src n gpu mode oc tc oty tty xs s' hf hm e hx d => exact gi_after ih hf (by exact trivial) e
  | get p tgt nbi ctx addr src n gpu mode oc tc oty tty xs s' hf hm e hx d => exact gi_after ih hf (by exact trivial) e
  | amo p tgt ctx addr r ty api gpu mode s' hf hm ht hk e hr d => exact gi_after ih hf (by exact trivial) e
  | amoRet p tgt ctx addr r ty api gpu mode s' hf hm ht hk e hr d => exact gi_afterRet ih hf (by exact trivial) e
  | store p a v hf => exact ⟨ih.inv, ih.ep, ih.cov, ih.lv, ih.fly, ih.pes, ih.busy⟩
  | poll p addr r n mode hf hm hr => exact ⟨ih.inv, ih.ep, ih.cov, ih.lv, ih.fly, ih.pes, ih.busy⟩
  | touch p ws hf => exact ⟨ih.inv, ih.ep, ih.cov, ih.lv, ih.fly, ih.pes, ih.busy⟩
  | call p op s' hf l hop e d => exact gi_after ih hf l e
  | enter p s' hf e d =>
    obtain ⟨e1, e2, e3⟩ := Order.barrier_done (ih.inv p) e
    refine ⟨?_, ?_, ?_, ?_, ?_, ?_, ?_⟩
    · intro q
      simp only [after, upd_at]
      split
      · rename_i h; subst h; exact Order.barrierLocal_inv (ih.inv q) e
      · exact ih.inv q
    · intro q
      simp only [after, upd_at]
      split
      · rename_i h; subst h; rw [e1, ih.ep]
      · exact ih.ep q
    · intro q o ho hc
      simp only [after, upd_at] at ho ⊢
      split at ho
      · rename_i h
        subst h
        exfalso
        obtain ⟨hv, ht⟩ := e3 o ho hc
        have := ((ih.inv q).am o (e2 o ho) hv).2.1
        rw [S.hn] at this
        exact ht (List.mem_range.mpr this)
      · rename_i h
        rw [if_neg h]
        exact ih.cov q o ho hc
    · intro q hq r hr
      have := ih.lv q hq r hr
      simp only [upd_at]
      split
      · rename_i h; subst h; exact Nat.le_succ_of_le this
      · exact this
    · intro q x hx
      have hx' : x ∈ (after g p s' []).fly q := hx
      have hpe : ({ after g p s' [] with arr := Function.update g.arr p (g.arr p + 1) } : G).pe q =
          if q = p then s' else g.pe q := by simp only [after, upd_at]
      rw [hpe]
      rcases fly_after hx' with ⟨h, h2⟩ | ⟨rfl, pd, hp, rfl⟩
      · split
        · rename_i e; exact h2 e
        · exact ih.fly q x h
      · rw [if_pos rfl]
        unfold pushed at hp
        split at hp
        · exact List.mem_of_getLast? hp
        · cases hp
    · intro q hq
      have hne : q ≠ p := by have := hf.1; omega
      simp only [after, upd_at, if_neg hne]
      exact ih.pes q hq
    · intro q hb
      simp only [after, upd_at] at hb ⊢
      split at hb
      · exfalso
        apply hb
        split <;> rfl
      · rename_i h
        rw [if_neg h]
        exact ih.busy q hb
  | leave p hp h0 ha =>
    refine ⟨ih.inv, ih.ep, ih.cov, ?_, ih.fly, ih.pes, ?_⟩
    · intro q hq r hr
      simp only [upd_at]
      split
      · exact ha r hr
      · exact ih.lv q hq r hr
    · intro q hb
      have := ih.busy q hb
      simp only [upd_at]
      split
      · rename_i h; subst h; omega
      · exact this
  | perform q l1 l2 pd t1 t2 a m' hq hl e =>
    refine ⟨ih.inv, ih.ep, ih.cov, ih.lv, ?_, ?_, ih.busy⟩
    · intro r x hx
      simp only [upd_at] at hx
      split at hx
      · rename_i er
        subst er
        have hf := ih.fly r
        rw [hl] at hf
        rcases List.mem_append.mp hx with h | h
        · exact hf x (List.mem_append.mpr (Or.inl h))
        · rcases List.mem_cons.mp h with rfl | h
          · exact hf ⟨pd, t1 ++ a :: t2⟩ (by simp)
          · exact hf x (by simp [h])
      · exact ih.fly r x hx
    · intro r hr
      simp only [upd_at]
      rw [if_neg (by omega)]
      exact ih.pes r hr
  | performBusy q t1 t2 a m' hq hl e =>
    refine ⟨ih.inv, ih.ep, ih.cov, ih.lv, ih.fly, ?_, ?_⟩
    · intro r hr
      simp only [upd_at]
      rw [if_neg (by omega)]
      exact ih.pes r hr
    · intro r hb
      apply ih.busy r
      simp only [upd_at] at hb
      split at hb
      · rename_i er; subst er; rw [hl]; simp
      · exact hb
  | fin q done hq d =>
    refine ⟨?_, ?_, ?_, ih.lv, ?_, ?_, ih.busy⟩
    · intro r
      simp only [upd_at]
      split
      · rename_i h; subst h; exact Order.inv_drop (ih.inv r) done
      · exact ih.inv r
    · intro r
      simp only [upd_at]
      split
      · rename_i h; subst h; exact ih.ep r
      · exact ih.ep r
    · intro r o ho hc
      simp only [upd_at] at ho
      split at ho
      · rename_i h; subst h; exact ih.cov r o (List.mem_filter.mp ho).1 hc
      · exact ih.cov r o ho hc
    · intro r x hx
      simp only [upd_at] at hx ⊢
      split at hx
      · rename_i h
        subst h
        rw [if_pos rfl]
        have := (List.mem_filter.mp hx).2
        simpa using this
      · rename_i h
        rw [if_neg h]
        exact ih.fly r x hx
    · intro r hr
      have hne : r ≠ q := by omega
      simp only [upd_at, if_neg hne]
      exact ih.pes r hr

theorem gi_init (S : Sys) (m : Mems) : GI S (ginit m) :=
  ⟨fun p => Order.inv_init _, fun _ => rfl, by simp [ginit, Order.init], fun _ _ _ _ => Nat.le_refl _, by simp [ginit],
    fun _ _ => ⟨rfl, rfl⟩, fun _ _ => rfl⟩

theorem gi_run {S : Sys} {g g' : G} {l : List Ev} (ih : GI S g) (h : Run S g l g') : GI S g' := by
  induction h with
  | nil g => exact ih
  | cons s r ih2 => exact ih2 (gi_step ih s)

theorem gi_reach {S : Sys} {g : G} (h : Reach S g) : GI S g := by
  obtain ⟨m, l, h⟩ := h
  exact gi_run (gi_init S m) h

theorem run_append {S : Sys} {g g1 g2 : G} {l1 l2 : List Ev} (h1 : Run S g l1 g1) (h2 : Run S g1 l2 g2) :
    Run S g (l1 ++ l2) g2 := by
  induction h1 with
  | nil g => exact h2
  | cons s r ih => exact Run.cons s (ih h2)

theorem run_split {S : Sys} {g g2 : G} {l1 l2 : List Ev} (h : Run S g (l1 ++ l2) g2) :
    ∃ g1, Run S g l1 g1 ∧ Run S g1 l2 g2 := by
  induction l1 generalizing g with
  | nil => exact ⟨g, Run.nil g, h⟩
  | cons e t ih =>
    cases h with
    | cons s r =>
      obtain ⟨g1, h1, h2⟩ := ih r
      exact ⟨g1, Run.cons s h1, h2⟩

end Verif.Vis
