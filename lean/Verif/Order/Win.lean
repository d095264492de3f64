import Verif.Order.Lemmas
/-!
# Which windows exist; when a flush succeeds
-/
namespace Verif.Order
open Verif.Sobj

/-- the slot has a window -/
def Has (s : St) (l : Loc) : Prop := ∃ y w, s.ictx l = some y ∧ y.win = some w

/-- the library's windows exist, and all windows of an attached space -/
structure Wins (c : Cfg) (s : St) : Prop where
  symm : Has s .symm
  heap : Has s .heap
  data : Has s .data
  sp : ∀ x ∈ s.spaces, x.att = true → ∀ l ∈ spaceLocs c x, Has s l

theorem wins_init (c : Cfg) : Wins c init :=
  ⟨⟨_, _, rfl, rfl⟩, ⟨_, _, rfl, rfl⟩, ⟨_, _, rfl, rfl⟩, by simp [init]⟩

theorem has_setFlag {s : St} {l : Loc} (h : Has s l) (b : Bool) (l' : Loc) : Has (s.setFlag b l') l := by
  obtain ⟨y, w, h1, h2⟩ := h
  unfold Has
  rw [ictx_setFlag]
  split
  · rw [h1]; exact ⟨_, w, rfl, h2⟩
  · exact ⟨y, w, h1, h2⟩

theorem has_congr {s s' : St} {l : Loc} (h : Has s l) (e : s'.ictx l = s.ictx l) : Has s' l := by
  unfold Has; rw [e]; exact h

/-- everything but flags unchanged: same spaces, same windows -/
theorem wins_setFlag {c : Cfg} {s : St} (h : Wins c s) (b : Bool) (l : Loc) : Wins c (s.setFlag b l) := by
  refine ⟨has_setFlag h.symm b l, has_setFlag h.heap b l, has_setFlag h.data b l, ?_⟩
  obtain ⟨f, hf, e⟩ := spaces_of_setFlag s b l
  intro x hx ha l' hl'
  rw [e] at hx
  obtain ⟨y, hy, rfl⟩ := List.mem_map.mp hx
  obtain ⟨n1, n2, n3, _⟩ := hf y
  rw [n3] at ha
  have : spaceLocs c (f y) = spaceLocs c y := by unfold spaceLocs; rw [n1, n2]
  rw [this] at hl'
  exact has_setFlag (h.sp y hy ha l' hl') b l

theorem wins_same {c : Cfg} {s s' : St} (h : Wins c s) (e : s'.spaces = s.spaces) (e2 : ∀ l, s'.ictx l = s.ictx l) :
    Wins c s' :=
  ⟨has_congr h.symm (e2 _), has_congr h.heap (e2 _), has_congr h.data (e2 _),
    fun x hx ha l hl => has_congr (h.sp x (e ▸ hx) ha l hl) (e2 l)⟩

theorem wins_drop {c : Cfg} {s : St} (h : Wins c s) (d : Pend → Bool) : Wins c (s.drop d) :=
  wins_same h rfl (ictx_drop s d)

theorem wins_push {c : Cfg} {s : St} (h : Wins c s) (p : Pend) : Wins c (s.push p) :=
  wins_same h rfl (ictx_push s p)

theorem wins_amFlush {c : Cfg} {s : St} (h : Wins c s) (pes : List Nat) : Wins c (amFlush c s pes) := by
  unfold amFlush
  split
  · exact h
  · exact wins_same h rfl (fun l => by cases l <;> rfl)

theorem wins_issue {c : Cfg} {s s' : St} (h : Wins c s) {ctx : Option (Nat × Nat)} {addr : BitVec 64} {n tgt : Nat}
    {k : Kind} {gpu : Bool} (e : issue c s ctx addr n tgt k gpu = .ok s') : Wins c s' := by
  unfold issue at e
  split at e
  · cases e; exact h
  · split at e
    · cases e
    · cases hl : lookup c s ctx addr with
      | ok r =>
        rw [hl] at e
        simp only [Res.bind] at e
        split at e
        · unfold issueDirect at e
          split at e
          · cases e
          · cases e
            unfold mark
            have h1 : Wins c (if k.leaves then s.push ⟨.win ‹_›, tgt, ctx, r.2, s.ep⟩ else s) := by
              split
              · exact wins_push h _
              · exact h
            split
            · exact wins_setFlag h1 _ _
            · exact h1
        · cases e
          unfold issueAm
          dsimp only
          split
          · exact wins_same h rfl (fun l => by cases l <;> rfl)
          · exact wins_same h rfl (fun l => by cases l <;> rfl)
      | abort => rw [hl] at e; cases e
      | ub => rw [hl] at e; cases e
      | hang => rw [hl] at e; cases e

theorem wins_flushLoc {c : Cfg} {s s' : St} (h : Wins c s) {l : Loc} (e : flushLoc c s l = .ok s') :
    Wins c s' ∧ s'.spaces.map (fun x => (x.name, x.nctx, x.att)) = s.spaces.map (fun x => (x.name, x.nctx, x.att)) := by
  unfold flushLoc at e
  split at e
  · cases e
  · split at e
    · cases e; exact ⟨h, rfl⟩
    · split at e
      · cases e
      · simp only [Res.ok.injEq] at e
        split at e
        · subst e
          refine ⟨wins_setFlag (wins_drop h _) _ _, ?_⟩
          obtain ⟨f, hf, e⟩ := spaces_of_setFlag (s.flushWin ‹_›) false l
          rw [e, List.map_map]
          apply List.map_congr_left
          intro x _
          obtain ⟨n1, n2, n3, _⟩ := hf x
          simp [n1, n2, n3]
        · subst e; exact ⟨wins_drop h _, rfl⟩

theorem wins_flushLocs {c : Cfg} {s s' : St} (h : Wins c s) {ls : List Loc} (e : flushLocs c s ls = .ok s') :
    Wins c s' := by
  induction ls generalizing s with
  | nil => cases e; exact h
  | cons l t ih =>
    simp only [flushLocs] at e
    cases hf : flushLoc c s l with
    | ok s1 => rw [hf] at e; exact ih (wins_flushLoc h hf).1 e
    | abort => rw [hf] at e; cases e
    | ub => rw [hf] at e; cases e
    | hang => rw [hf] at e; cases e

theorem wins_quiet {c : Cfg} {s s' : St} (h : Wins c s) {ctx : Option (Nat × Nat)} (e : quiet c s ctx = .ok s') :
    Wins c s' := by
  unfold quiet at e
  cases ctx with
  | some q => exact (wins_flushLoc h e).1
  | none =>
    dsimp only at e
    cases hf : flushLocs c s (quietLocs c s) with
    | ok s1 =>
      rw [hf] at e
      cases e
      exact wins_amFlush (wins_flushLocs h hf) _
    | abort => rw [hf] at e; cases e
    | ub => rw [hf] at e; cases e
    | hang => rw [hf] at e; cases e

/-- slots of other spaces -/
theorem spaceLocs_ne {c : Cfg} {x : Sp} {nm : Nat} (h : x.name ≠ nm) {l : Loc} (hl : l ∈ spaceLocs c x) :
    l ≠ .dflt nm ∧ ∀ i, l ≠ .ctx nm i := by
  unfold spaceLocs at hl
  rw [List.mem_append, List.mem_map] at hl
  rcases hl with ⟨i, _, rfl⟩ | hl
  · exact ⟨by simp, fun j e => by cases e; exact h rfl⟩
  · cases hd : c.dyn with
    | true => simp [hd] at hl
    | false =>
      simp [hd] at hl
      subst hl
      exact ⟨fun e => by cases e; exact h rfl, by simp⟩

theorem wins_used {c : Cfg} {s : St} (h : Wins c s) (nm i : Nat) (b : Bool) : Wins c (s.setUsed nm i b) := by
  have hs := ictx_setUsed s nm i b
  refine ⟨has_congr h.symm (hs _), has_congr h.heap (hs _), has_congr h.data (hs _), ?_⟩
  intro x hx ha l hl
  rcases mem_updSp hx with ⟨y, hy, _, rfl⟩ | ⟨hx, _⟩
  · exact has_congr (h.sp y hy ha l hl) (hs l)
  · exact has_congr (h.sp x hx ha l hl) (hs l)

theorem wins_step {c : Cfg} {s s' : St} {op : Op} (hi : Inv c s) (h : Wins c s) (e : step c s op = .ok s') :
    Wins c s' := by
  cases op with
  | issue ctx addr n tgt k gpu => exact wins_issue h e
  | complete d => cases e; exact wins_drop h d
  | quiet ctx => exact wins_quiet h e
  | fence ctx => exact wins_quiet h (by rw [← fence_quiet]; exact e)
  | create nm a k =>
    simp only [step] at e
    split at e
    · cases e
    · rename_i hn
      cases e
      refine ⟨h.symm, h.heap, h.data, ?_⟩
      intro x hx ha l hl
      rcases List.mem_append.mp hx with hx | hx
      · obtain ⟨y, w, h1, h2⟩ := h.sp x hx ha l hl
        refine ⟨y, w, ?_, h2⟩
        have hfind : ∀ n z, s.find n = some z → ({ s with spaces := s.spaces ++
            [{ name := nm, attr := a, nctx := k, dflt := ⟨none, false⟩, ctxs := none, att := false }] } : St).find n
              = some z := by
          intro n z hz
          unfold St.find at hz ⊢
          rw [List.find?_append, hz]; rfl
        cases l with
        | symm => exact h1
        | heap => exact h1
        | data => exact h1
        | dflt n =>
          simp only [St.ictx] at h1 ⊢
          cases hf : s.find n with
          | none => rw [hf] at h1; cases h1
          | some z => rw [hfind n z hf, ← hf]; exact h1
        | ctx n i =>
          simp only [St.ictx] at h1 ⊢
          cases hf : s.find n with
          | none => rw [hf] at h1; cases h1
          | some z => rw [hfind n z hf, ← hf]; exact h1
      · rw [List.mem_singleton] at hx; subst hx; cases ha
  | attach nm =>
    simp only [step] at e
    cases hx : s.find nm with
    | none => rw [hx] at e; cases e
    | some x =>
      rw [hx] at e
      dsimp only at e
      split at e
      · cases e
      · cases e
        refine ⟨h.symm, h.heap, h.data, ?_⟩
        intro y hy ha l hl
        rcases mem_updSp hy with ⟨z, hz, hzn, rfl⟩ | ⟨hy, hn⟩
        · have hzx : z = x := by
            have := hi.uniq z hz
            rw [hzn, hx] at this; cases this; rfl
          subst hzx
          have hff : ({ s with
              nextWin := s.nextWin + 1 + z.nctx
              spaces := updSp s.spaces nm (fun y => { y with
                att := true
                dflt := attachDflt c s y
                ctxs := if y.nctx = 0 then none else some (newCtxs (s.nextWin + 1) y.nctx) }) } : St).find nm =
                some { z with
                  att := true
                  dflt := attachDflt c s z
                  ctxs := if z.nctx = 0 then none else some (newCtxs (s.nextWin + 1) z.nctx) } := by
            unfold St.find at hx ⊢
            dsimp only
            rw [find_updSp _ _ _ _ (by intro x; rfl), hx]
            simp
          unfold spaceLocs at hl
          rw [List.mem_append, List.mem_map] at hl
          rcases hl with ⟨i, hi', rfl⟩ | hl
          · have hlt : i < z.nctx := List.mem_range.mp hi'
            dsimp only
            rw [hzn]
            have hne : z.nctx ≠ 0 := by omega
            refine ⟨⟨some (s.nextWin + 1 + i), false⟩, s.nextWin + 1 + i, ?_, rfl⟩
            simp only [St.ictx]
            rw [hff]
            simp [hne, newCtxs, hlt]
          · cases hd : c.dyn with
            | true => simp [hd] at hl
            | false =>
              simp [hd] at hl
              subst hl
              rw [hzn]
              refine ⟨attachDflt c s z, s.nextWin, ?_, by simp [attachDflt, hd]⟩
              simp only [St.ictx, hff, Option.map_some]
        · refine has_congr (h.sp y hy ha l hl) ?_
          apply ictx_updSp_ne s _ nm (fun y => { y with
                att := true
                dflt := attachDflt c s y
                ctxs := if y.nctx = 0 then none else some (newCtxs (s.nextWin + 1) y.nctx) })
          · intro x; rfl
          · rfl
          · rfl
          · rfl
          · rfl
          · exact spaceLocs_ne hn hl
  | detach nm =>
    simp only [step] at e
    cases hx : s.find nm with
    | none => rw [hx] at e; cases e
    | some x =>
      rw [hx] at e
      dsimp only at e
      split at e
      · cases e
      · split at e
        · cases e
        · split at e
          · cases e
          · cases e
            refine ⟨h.symm, h.heap, h.data, ?_⟩
            intro y hy ha l hl
            rcases mem_updSp hy with ⟨z, hz, hzn, rfl⟩ | ⟨hy, hn⟩
            · cases ha
            · refine has_congr (h.sp y hy ha l hl) ?_
              apply ictx_updSp_ne s _ nm (fun y => { y with
                  att := false
                  dflt := if c.dyn then y.dflt else { y.dflt with win := none }
                  ctxs := none })
              · intro x; rfl
              · rfl
              · rfl
              · rfl
              · rfl
              · exact spaceLocs_ne hn hl
  | destroy nm =>
    simp only [step] at e
    cases hx : s.find nm with
    | none => rw [hx] at e; cases e
    | some x =>
      rw [hx] at e
      cases e
      refine ⟨h.symm, h.heap, h.data, ?_⟩
      intro y hy ha l hl
      obtain ⟨hy1, hy2⟩ := List.mem_filter.mp hy
      have hn : y.name ≠ nm := by simpa using hy2
      have hyf := hi.uniq y hy1
      have hfind : ({ s with spaces := s.spaces.filter (fun x => x.name != nm) } : St).find y.name = s.find y.name := by
        unfold St.find
        dsimp only
        generalize s.spaces = sp
        induction sp with
        | nil => rfl
        | cons z t ih =>
          by_cases e : z.name = nm
          · simp only [List.filter_cons, e, bne_self_eq_false, Bool.false_eq_true, if_false, List.find?_cons]
            rw [ih, show (nm == y.name) = false by simpa using fun h => hn h.symm]
          · simp only [List.filter_cons, show (z.name != nm) = true by simpa using e, if_true, List.find?_cons]
            split
            · rfl
            · exact ih
      refine has_congr (h.sp y hy1 ha l hl) ?_
      unfold spaceLocs at hl
      rw [List.mem_append, List.mem_map] at hl
      rcases hl with ⟨i, _, rfl⟩ | hl
      · simp only [St.ictx]; rw [hfind]
      · cases hd : c.dyn with
        | true => simp [hd] at hl
        | false =>
          simp [hd] at hl
          subst hl
          simp only [St.ictx]; rw [hfind]
  | ctxCreate nm i =>
    simp only [step] at e
    split at e
    · cases e
    · split at e
      · cases e
      · cases e; exact wins_used h nm i true
  | ctxDestroy nm i =>
    simp only [step] at e
    split at e
    · cases e
    · split at e
      · cases e; exact wins_used h nm i false
      · cases e

theorem wins_barrier {c : Cfg} {s s' : St} (h : Wins c s) {pes : List Nat}
    (e : barrierLocal c s pes = .ok s') : Wins c s' := by
  have key : ∀ {s s' : St} {l : Loc}, Wins c s → winFlush s l = .ok s' → Wins c s' := by
    intro s s' l h e
    unfold winFlush at e
    split at e
    · cases e
    · cases e; exact wins_drop h _
  unfold barrierLocal at e
  have fin : ∀ s2, Wins c s2 → Wins c { amFlush c s2 pes with ep := (amFlush c s2 pes).ep + 1 } :=
    fun s2 h2 => wins_same (wins_amFlush h2 pes) rfl (fun l => by cases l <;> rfl)
  cases hd : c.dyn with
  | true =>
    simp only [hd, if_true] at e
    cases hf : winFlush s .symm with
    | ok s2 => rw [hf] at e; cases e; exact fin s2 (key h hf)
    | abort => rw [hf] at e; cases e
    | ub => rw [hf] at e; cases e
    | hang => rw [hf] at e; cases e
  | false =>
    simp only [hd, Bool.false_eq_true, if_false] at e
    cases hf : winFlush s .heap with
    | ok s1 =>
      rw [hf] at e
      simp only [Res.bind] at e
      cases hf2 : winFlush s1 .data with
      | ok s2 => rw [hf2] at e; cases e; exact fin s2 (key (key h hf) hf2)
      | abort => rw [hf2] at e; cases e
      | ub => rw [hf2] at e; cases e
      | hang => rw [hf2] at e; cases e
    | abort => rw [hf] at e; cases e
    | ub => rw [hf] at e; cases e
    | hang => rw [hf] at e; cases e

theorem hist_wins {c : Cfg} {s : St} (h : Hist c s) : Wins c s := by
  induction h with
  | init => exact wins_init c
  | step op h _ e ih => exact wins_step (hist_inv h) ih e
  | barrier pes h e ih => exact wins_barrier ih e

/-- a flush of slots that all have windows succeeds -/
theorem flushLocs_total {c : Cfg} {s : St} {ls : List Loc} (h : ∀ l ∈ ls, Has s l) :
    ∃ s', flushLocs c s ls = .ok s' := by
  induction ls generalizing s with
  | nil => exact ⟨s, rfl⟩
  | cons l t ih =>
    obtain ⟨y, w, hy, hw⟩ := h l (by simp)
    have h1 : ∃ s1, flushLoc c s l = .ok s1 ∧ ∀ l', Has s l' → Has s1 l' := by
      unfold flushLoc
      rw [hy]
      dsimp only
      split
      · exact ⟨s, rfl, fun _ h => h⟩
      · rw [hw]
        refine ⟨_, rfl, ?_⟩
        intro l' h'
        have h2 : Has (s.flushWin w) l' := has_congr h' (ictx_drop s _ l')
        split
        · exact has_setFlag h2 _ _
        · exact h2
    obtain ⟨s1, e1, k1⟩ := h1
    obtain ⟨s2, e2⟩ := ih (s := s1) (fun l' hl' => k1 l' (h l' (by simp [hl'])))
    exact ⟨s2, by simp only [flushLocs, e1, Res.bind]; exact e2⟩

end Verif.Order
