import Verif.Order.Model
import Mathlib.Data.List.Basic
import Mathlib.Tactic.SplitIfs
/-!
# Invariant of the ordering model
-/
namespace Verif.Order
open Verif.Sobj

theorem find_updSp (l : List Sp) (nm n : Nat) (f : Sp → Sp) (hf : ∀ x, (f x).name = x.name) :
    (updSp l nm f).find? (fun x => x.name == n) =
      (l.find? (fun x => x.name == n)).map (fun x => if n = nm then f x else x) := by
  induction l with
  | nil => rfl
  | cons x t ih =>
    have hn : (if x.name = nm then f x else x).name = x.name := by split <;> simp [hf]
    simp only [updSp, List.map_cons, List.find?_cons, hn]
    by_cases e : x.name = n
    · subst e; simp
    · simp only [show (x.name == n) = false from by simpa using e]
      exact ih

theorem find_mem {s : St} {nm : Nat} {x : Sp} (h : s.find nm = some x) : x ∈ s.spaces ∧ x.name = nm := by
  unfold St.find at h
  exact ⟨List.mem_of_find?_eq_some h, by simpa using List.find?_some h⟩

/-- reading after a store to a flag -/
theorem ictx_setFlag (s : St) (b : Bool) (l l' : Loc) :
    (s.setFlag b l).ictx l' = if l = l' then (s.ictx l').map (fun x => { x with flag := b }) else s.ictx l' := by
  cases l with
  | symm => cases l' <;> simp [St.setFlag, St.ictx, St.find]
  | heap => cases l' <;> simp [St.setFlag, St.ictx, St.find]
  | data => cases l' <;> simp [St.setFlag, St.ictx, St.find]
  | dflt nm =>
    cases l' with
    | symm => simp [St.setFlag, St.ictx]
    | heap => simp [St.setFlag, St.ictx]
    | data => simp [St.setFlag, St.ictx]
    | dflt nm' =>
      simp only [St.setFlag, St.ictx, St.find]
      rw [find_updSp _ _ _ _ (by intro x; rfl)]
      by_cases e : nm = nm'
      · subst e; simp [Option.map_map, Function.comp_def]
      · have e' : ¬ (nm' = nm) := fun h => e h.symm
        simp [e, e']
    | ctx nm' i =>
      simp only [St.setFlag, St.ictx, St.find]
      rw [find_updSp _ _ _ _ (by intro x; rfl)]
      cases s.spaces.find? (fun x => x.name == nm') with
      | none => simp
      | some x => by_cases e : nm' = nm <;> simp [e]
  | ctx nm i =>
    cases l' with
    | symm => simp [St.setFlag, St.ictx]
    | heap => simp [St.setFlag, St.ictx]
    | data => simp [St.setFlag, St.ictx]
    | dflt nm' =>
      simp only [St.setFlag, St.ictx, St.find]
      rw [find_updSp _ _ _ _ (by intro x; rfl)]
      cases s.spaces.find? (fun x => x.name == nm') with
      | none => simp
      | some x => by_cases e : nm' = nm <;> simp [e]
    | ctx nm' j =>
      simp only [St.setFlag, St.ictx, St.find]
      rw [find_updSp _ _ _ _ (by intro x; rfl)]
      cases s.spaces.find? (fun x => x.name == nm') with
      | none => simp
      | some x =>
        by_cases e : nm' = nm
        · subst e
          cases hc : x.ctxs with
          | none => simp [hc]
          | some l =>
            by_cases e2 : i = j
            · subst e2
              simp [hc, List.getElem?_modify, Option.map_map, Function.comp_def]
            · simp [hc, List.getElem?_modify, e2]
        · have e' : ¬ (nm = nm') := fun h => e h.symm
          simp [e, e']

theorem spaces_of_setFlag (s : St) (b : Bool) (l : Loc) :
    ∃ f : Sp → Sp, (∀ x, (f x).name = x.name ∧ (f x).nctx = x.nctx ∧ (f x).att = x.att ∧ (f x).attr = x.attr ∧
      (f x).dflt.win = x.dflt.win ∧ (f x).ctxs.isSome = x.ctxs.isSome ∧
      (∀ k, (f x).ctxs = some k → ∃ k', x.ctxs = some k' ∧ k.length = k'.length)) ∧
      (s.setFlag b l).spaces = s.spaces.map f := by
  have hid : ∀ x : Sp, x.name = x.name ∧ x.nctx = x.nctx ∧ x.att = x.att ∧ x.attr = x.attr ∧
      x.dflt.win = x.dflt.win ∧ x.ctxs.isSome = x.ctxs.isSome ∧
      (∀ k, x.ctxs = some k → ∃ k', x.ctxs = some k' ∧ k.length = k'.length) :=
    fun x => ⟨rfl, rfl, rfl, rfl, rfl, rfl, fun k hk => ⟨k, hk, rfl⟩⟩
  cases l with
  | symm => exact ⟨id, hid, by simp [St.setFlag]⟩
  | heap => exact ⟨id, hid, by simp [St.setFlag]⟩
  | data => exact ⟨id, hid, by simp [St.setFlag]⟩
  | dflt nm =>
    refine ⟨fun x => if x.name = nm then { x with dflt := { x.dflt with flag := b } } else x, ?_, rfl⟩
    intro x
    dsimp only
    split
    · exact ⟨rfl, rfl, rfl, rfl, rfl, rfl, fun k hk => ⟨k, hk, rfl⟩⟩
    · exact hid x
  | ctx nm i =>
    refine ⟨fun x => if x.name = nm then { x with ctxs := x.ctxs.map (fun l => l.modify i
      (fun y => { y with ictx := { y.ictx with flag := b } })) } else x, ?_, rfl⟩
    intro x
    dsimp only
    split
    · refine ⟨rfl, rfl, rfl, rfl, rfl, by simp, fun k hk => ?_⟩
      cases hc : x.ctxs with
      | none => rw [hc] at hk; cases hk
      | some l =>
        rw [hc] at hk
        simp only [Option.map_some, Option.some.injEq] at hk
        exact ⟨l, rfl, by rw [← hk, List.length_modify]⟩
    · exact hid x

theorem flatMap_congr' {α β γ : Type} (l : List α) (f : α → β) (g : β → List γ) (h : α → List γ)
    (e : ∀ x, g (f x) = h x) : (l.map f).flatMap g = l.flatMap h := by
  induction l with
  | nil => rfl
  | cons x t ih => simp only [List.map_cons, List.flatMap_cons, e, ih]

theorem quietLocs_setFlag (c : Cfg) (s : St) (b : Bool) (l : Loc) : quietLocs c (s.setFlag b l) = quietLocs c s := by
  obtain ⟨f, hf, e⟩ := spaces_of_setFlag s b l
  unfold quietLocs
  rw [e, flatMap_congr' s.spaces f (spaceLocs c) (spaceLocs c)]
  intro x
  unfold spaceLocs
  rw [(hf x).1, (hf x).2.1]

/-- the slot an outstanding operation was issued on: that of its context, or of its object -/
def slotOf (c : Cfg) (p : Pend) : Loc :=
  match p.ctx with
  | some (nm, i) => .ctx nm i
  | none => c.slot p.obj

/-- what the window slots and flags guarantee: every operation outstanding on a window was issued on a slot that a quiet
visits, and with tracking the slot's flag is set; every outstanding active message has its flag set. -/
structure Inv (c : Cfg) (s : St) : Prop where
  /-- the context table of a space has `num_contexts` entries -/
  len : ∀ x ∈ s.spaces, ∀ l, x.ctxs = some l → l.length = x.nctx
  /-- names are unique -/
  uniq : ∀ x ∈ s.spaces, s.find x.name = some x
  /-- a space that is not attached has no windows -/
  natt : ∀ x ∈ s.spaces, x.att = false → x.ctxs = none ∧ x.dflt.win = none
  /-- with dynamic windows a space has no default window of its own -/
  dynw : c.dyn = true → ∀ x ∈ s.spaces, x.dflt.win = none
  win : ∀ p ∈ s.pend, ∀ w, p.via = .win w →
    ∃ l ∈ quietLocs c s, ∃ x, s.ictx l = some x ∧ x.win = some w ∧ (c.tracking = true → x.flag = true) ∧
      l = slotOf c p
  am : ∀ p ∈ s.pend, p.via = .am → s.amFlag p.tgt = true ∧ p.tgt < c.npes ∧ ¬ (c.amoDirect = true ∧ c.rma = .direct)

theorem inv_init (c : Cfg) : Inv c init :=
  ⟨by simp [init], by simp [init], by simp [init], by simp [init], by simp [init], by simp [init]⟩

/-- the slots that belong to the process -/
theorem mem_quietLocs_base (c : Cfg) (s : St) : (c.dyn = true → Loc.symm ∈ quietLocs c s) ∧
    (c.dyn = false → Loc.heap ∈ quietLocs c s ∧ Loc.data ∈ quietLocs c s) := by
  unfold quietLocs
  constructor
  · intro h; simp [h]
  · intro h; simp [h]

theorem mem_quietLocs_dflt {c : Cfg} {s : St} {x : Sp} (hx : x ∈ s.spaces) (hd : c.dyn = false) :
    Loc.dflt x.name ∈ quietLocs c s := by
  unfold quietLocs
  rw [List.mem_append, List.mem_flatMap]
  exact Or.inr ⟨x, hx, by simp [spaceLocs, hd]⟩

theorem mem_quietLocs_ctx {c : Cfg} {s : St} {x : Sp} (hx : x ∈ s.spaces) {i : Nat} (hi : i < x.nctx) :
    Loc.ctx x.name i ∈ quietLocs c s := by
  unfold quietLocs
  rw [List.mem_append, List.mem_flatMap]
  exact Or.inr ⟨x, hx, by simp [spaceLocs, hi]⟩

theorem mem_quietLocs {c : Cfg} {s : St} {l : Loc} : l ∈ quietLocs c s ↔
    (c.dyn = true ∧ l = .symm) ∨ (c.dyn = false ∧ (l = .heap ∨ l = .data)) ∨
    (c.dyn = false ∧ ∃ x ∈ s.spaces, l = .dflt x.name) ∨ (∃ x ∈ s.spaces, ∃ i < x.nctx, l = .ctx x.name i) := by
  unfold quietLocs
  rw [List.mem_append, List.mem_flatMap]
  constructor
  · rintro (h | ⟨x, hx, h⟩)
    · cases hd : c.dyn with
      | true => simp [hd] at h; exact Or.inl ⟨rfl, h⟩
      | false => simp [hd] at h; exact Or.inr (Or.inl ⟨rfl, h⟩)
    · unfold spaceLocs at h
      rw [List.mem_append, List.mem_map] at h
      rcases h with ⟨i, hi, rfl⟩ | h
      · exact Or.inr (Or.inr (Or.inr ⟨x, hx, i, List.mem_range.mp hi, rfl⟩))
      · cases hd : c.dyn with
        | true => simp [hd] at h
        | false => simp [hd] at h; exact Or.inr (Or.inr (Or.inl ⟨rfl, x, hx, h⟩))
  · rintro (⟨hd, rfl⟩ | ⟨hd, h⟩ | ⟨hd, x, hx, rfl⟩ | ⟨x, hx, i, hi, rfl⟩)
    · simp [hd]
    · left; simp [hd, h]
    · right; exact ⟨x, hx, by simp [spaceLocs, hd]⟩
    · right; exact ⟨x, hx, by simp [spaceLocs, hi]⟩

/-- every slot an operation can be issued on is visited by a quiet -/
theorem lookup_visited {c : Cfg} {s : St} (hi : Inv c s) {ctx : Option (Nat × Nat)} {addr : BitVec 64} {r : Loc × Obj}
    (h : lookup c s ctx addr = .ok r) :
    r.1 ∈ quietLocs c s ∧ ∀ v tgt ep, r.1 = slotOf c ⟨v, tgt, ctx, r.2, ep⟩ := by
  unfold lookup at h
  cases ctx with
  | some q =>
    obtain ⟨nm, i⟩ := q
    dsimp only at h
    cases hf : (s.find nm).bind (fun x => x.ctxs.bind (fun l => l[i]?)) with
    | none => rw [hf] at h; cases h
    | some y =>
      rw [hf] at h
      dsimp only at h
      split at h
      · cases h
        cases hx : s.find nm with
        | none => rw [hx] at hf; cases hf
        | some x =>
          rw [hx, Option.bind_some] at hf
          cases hc : x.ctxs with
          | none => rw [hc] at hf; cases hf
          | some l =>
            rw [hc, Option.bind_some] at hf
            obtain ⟨hm, hn⟩ := find_mem hx
            have hl := hi.len x hm l hc
            have hlt : i < l.length := (List.getElem?_eq_some_iff.mp hf).1
            have := mem_quietLocs_ctx (c := c) hm (i := i) (by omega)
            rw [hn] at this; exact ⟨this, fun _ _ _ => rfl⟩
      · cases h
  | none =>
    dsimp only at h
    cases hq : query (c.proc s) addr with
    | none => rw [hq] at h; cases h
    | some o =>
      rw [hq] at h
      cases h
      refine ⟨?_, fun _ _ _ => rfl⟩
      dsimp only
      obtain ⟨ob, at'⟩ := o
      cases ob with
      | heap =>
        cases hd : c.dyn with
        | true => simp only [Cfg.slot, hd]; exact (mem_quietLocs_base c s).1 hd
        | false => simp only [Cfg.slot, hd]; exact ((mem_quietLocs_base c s).2 hd).1
      | data =>
        cases hd : c.dyn with
        | true => simp only [Cfg.slot, hd]; exact (mem_quietLocs_base c s).1 hd
        | false => simp only [Cfg.slot, hd]; exact ((mem_quietLocs_base c s).2 hd).2
      | space nm =>
        cases hd : c.dyn with
        | true => simp only [Cfg.slot, hd]; exact (mem_quietLocs_base c s).1 hd
        | false =>
          simp only [Cfg.slot, hd]
          unfold query at hq
          split at hq
          · cases hq
          · split at hq
            · cases hq
            · split at hq
              · rename_i x hx
                cases hq
                have hm := List.mem_of_find?_eq_some hx
                simp only [Cfg.proc] at hm
                obtain ⟨y, hy, rfl⟩ := List.mem_map.mp hm
                exact mem_quietLocs_dflt hy hd
              · cases hq

theorem find_push (s : St) (p : Pend) (n : Nat) : (s.push p).find n = s.find n := rfl
theorem ictx_push (s : St) (p : Pend) (l : Loc) : (s.push p).ictx l = s.ictx l := by cases l <;> rfl
theorem ictx_drop (s : St) (d : Pend → Bool) (l : Loc) : (s.drop d).ictx l = s.ictx l := by cases l <;> rfl

theorem pend_setFlag (s : St) (b : Bool) (l : Loc) : (s.setFlag b l).pend = s.pend := by cases l <;> rfl
theorem amFlag_setFlag (s : St) (b : Bool) (l : Loc) : (s.setFlag b l).amFlag = s.amFlag := by cases l <;> rfl
theorem ep_setFlag (s : St) (b : Bool) (l : Loc) : (s.setFlag b l).ep = s.ep := by cases l <;> rfl

theorem find_setFlag (s : St) (b : Bool) (l : Loc) (n : Nat) :
    ∃ f : Sp → Sp, (∀ x, (f x).name = x.name) ∧ (s.setFlag b l).spaces = s.spaces.map f ∧
      (s.setFlag b l).find n = (s.find n).map f := by
  obtain ⟨f, hf, e⟩ := spaces_of_setFlag s b l
  refine ⟨f, fun x => (hf x).1, e, ?_⟩
  unfold St.find
  rw [e]
  generalize s.spaces = sp
  clear e
  induction sp with
  | nil => rfl
  | cons x t ih =>
    simp only [List.map_cons, List.find?_cons, (hf x).1]
    split
    · rfl
    · exact ih

/-- a flag store keeps the structural part -/
theorem struct_setFlag {c : Cfg} {s : St} (hi : Inv c s) (b : Bool) (l : Loc) :
    (∀ x ∈ (s.setFlag b l).spaces, ∀ k, x.ctxs = some k → k.length = x.nctx) ∧
    (∀ x ∈ (s.setFlag b l).spaces, (s.setFlag b l).find x.name = some x) ∧
    (∀ x ∈ (s.setFlag b l).spaces, x.att = false → x.ctxs = none ∧ x.dflt.win = none) ∧
    (c.dyn = true → ∀ x ∈ (s.setFlag b l).spaces, x.dflt.win = none) := by
  obtain ⟨f, hf, e⟩ := spaces_of_setFlag s b l
  refine ⟨?_, ?_, ?_, ?_⟩
  · intro x hx k hk
    rw [e] at hx
    obtain ⟨y, hy, rfl⟩ := List.mem_map.mp hx
    obtain ⟨k', hk', hl⟩ := (hf y).2.2.2.2.2.2 k hk
    rw [hl, (hf y).2.1]
    exact hi.len y hy k' hk'
  · intro x hx
    rw [e] at hx
    obtain ⟨y, hy, rfl⟩ := List.mem_map.mp hx
    have h1 : (s.setFlag b l).find (f y).name = (s.find (f y).name).map f := by
      unfold St.find
      rw [e]
      generalize s.spaces = sp
      induction sp with
      | nil => rfl
      | cons x t ih =>
        simp only [List.map_cons, List.find?_cons, (hf x).1]
        split
        · rfl
        · exact ih
    rw [h1, (hf y).1, hi.uniq y hy]
    rfl
  · intro x hx ha
    rw [e] at hx
    obtain ⟨y, hy, rfl⟩ := List.mem_map.mp hx
    rw [(hf y).2.2.1] at ha
    obtain ⟨h1, h2⟩ := hi.natt y hy ha
    refine ⟨?_, by rw [(hf y).2.2.2.2.1]; exact h2⟩
    have := (hf y).2.2.2.2.2.1
    rw [h1] at this
    cases hc : (f y).ctxs with
    | none => rfl
    | some k => rw [hc] at this; cases this
  · intro hd x hx
    rw [e] at hx
    obtain ⟨y, hy, rfl⟩ := List.mem_map.mp hx
    rw [(hf y).2.2.2.2.1]
    exact hi.dynw hd y hy

/-- setting a flag keeps the invariant -/
theorem inv_setTrue {c : Cfg} {s : St} (hi : Inv c s) (l : Loc) : Inv c (s.setFlag true l) := by
  obtain ⟨a1, a2, a3, a4⟩ := struct_setFlag hi true l
  refine ⟨a1, a2, a3, a4, ?_, ?_⟩
  · intro p hp w hw
    rw [pend_setFlag] at hp
    obtain ⟨l', hl', x, hx, hxw, hxf⟩ := hi.win p hp w hw
    refine ⟨l', by rw [quietLocs_setFlag]; exact hl', ?_⟩
    rw [ictx_setFlag]
    split
    · rw [hx]; exact ⟨_, rfl, hxw, fun _ => rfl, hxf.2⟩
    · exact ⟨x, hx, hxw, hxf⟩
  · intro p hp hv
    rw [pend_setFlag] at hp
    rw [amFlag_setFlag]
    exact hi.am p hp hv

/-- completion keeps the invariant -/
theorem inv_drop {c : Cfg} {s : St} (hi : Inv c s) (d : Pend → Bool) : Inv c (s.drop d) := by
  have hs : ∀ p ∈ (s.drop d).pend, p ∈ s.pend := fun p hp => (List.mem_filter.mp hp).1
  refine ⟨hi.len, hi.uniq, hi.natt, hi.dynw, ?_, ?_⟩
  · intro p hp w hw
    obtain ⟨l, hl, x, hx⟩ := hi.win p (hs p hp) w hw
    exact ⟨l, hl, x, by rw [ictx_drop]; exact hx.1, hx.2⟩
  · intro p hp hv
    exact hi.am p (hs p hp) hv

/-- a flag may be cleared when nothing is outstanding on the slot's window -/
theorem inv_setFalse {c : Cfg} {s : St} (hi : Inv c s) (l : Loc) (w : Nat) (x : Ictx) (hx : s.ictx l = some x)
    (hw : x.win = some w) (hp : ∀ p ∈ s.pend, p.via ≠ .win w) : Inv c (s.setFlag false l) := by
  obtain ⟨a1, a2, a3, a4⟩ := struct_setFlag hi false l
  refine ⟨a1, a2, a3, a4, ?_, ?_⟩
  · intro p hpm w' hw'
    rw [pend_setFlag] at hpm
    obtain ⟨l', hl', x', hx', hxw', hxf'⟩ := hi.win p hpm w' hw'
    refine ⟨l', by rw [quietLocs_setFlag]; exact hl', ?_⟩
    rw [ictx_setFlag]
    split
    · rename_i e
      subst e
      rw [hx] at hx'
      cases hx'
      rw [hw] at hxw'
      cases hxw'
      exact absurd hw' (hp p hpm)
    · exact ⟨x', hx', hxw', hxf'⟩
  · intro p hpm hv
    rw [pend_setFlag] at hpm
    rw [amFlag_setFlag]
    exact hi.am p hpm hv

theorem inv_push {c : Cfg} {s : St} (hi : Inv c s) (p : Pend)
    (hw : ∀ w, p.via = .win w →
      ∃ l ∈ quietLocs c s, ∃ x, s.ictx l = some x ∧ x.win = some w ∧ (c.tracking = true → x.flag = true) ∧
        l = slotOf c p)
    (ha : p.via = .am → s.amFlag p.tgt = true ∧ p.tgt < c.npes ∧ ¬ (c.amoDirect = true ∧ c.rma = .direct)) :
    Inv c (s.push p) := by
  refine ⟨hi.len, hi.uniq, hi.natt, hi.dynw, ?_, ?_⟩
  · intro q hq w h
    rcases List.mem_append.mp hq with hq | hq
    · obtain ⟨l, hl, x, hx⟩ := hi.win q hq w h
      exact ⟨l, hl, x, by rw [ictx_push]; exact hx.1, hx.2⟩
    · rw [List.mem_singleton] at hq
      subst hq
      obtain ⟨l, hl, x, hx⟩ := hw w h
      exact ⟨l, hl, x, by rw [ictx_push]; exact hx.1, hx.2⟩
  · intro q hq h
    rcases List.mem_append.mp hq with hq | hq
    · exact hi.am q hq h
    · rw [List.mem_singleton] at hq
      subst hq
      exact ha h

theorem setFlag_push (s : St) (p : Pend) (b : Bool) (l : Loc) : (s.push p).setFlag b l = (s.setFlag b l).push p := by
  cases l <;> rfl

/-- the code marks every kind that MPI may leave outstanding -/
theorem marks_leaves (k : Kind) (h : k.leaves = true) : k.marks = true := by
  cases k with
  | fetch noop => cases noop <;> simp_all [Kind.leaves, Kind.marks]
  | put => rfl
  | putNbi => rfl
  | get => cases h
  | getNbi => rfl
  | post => rfl
  | cswap => rfl

theorem inv_issueDirect {c : Cfg} {s s' : St} (hi : Inv c s) {k : Kind} {loc : Loc} {obj : Obj}
    {ctx : Option (Nat × Nat)} {tgt : Nat} (hl : loc ∈ quietLocs c s ∧ ∀ v tgt ep, loc = slotOf c ⟨v, tgt, ctx, obj, ep⟩)
    (h : issueDirect c s k loc obj ctx tgt = .ok s') : Inv c s' := by
  unfold issueDirect at h
  cases hx : s.ictx loc with
  | none => rw [hx] at h; cases h
  | some x =>
    rw [hx, Option.bind_some] at h
    cases hw : x.win with
    | none => rw [hw] at h; cases h
    | some w =>
      rw [hw] at h
      cases h
      unfold mark
      cases hk : k.leaves with
      | false =>
        simp only [if_false, Bool.false_eq_true]
        split
        · exact inv_setTrue hi loc
        · exact hi
      | true =>
        simp only [if_true]
        rw [marks_leaves k hk, Bool.and_true]
        cases ht : c.tracking with
        | true =>
          simp only [if_true]
          rw [setFlag_push]
          refine inv_push (inv_setTrue hi loc) _ ?_ (by intro h; cases h)
          intro w' h'
          cases h'
          refine ⟨loc, by rw [quietLocs_setFlag]; exact hl.1, ?_⟩
          rw [ictx_setFlag, if_pos rfl, hx]
          exact ⟨_, rfl, hw, fun _ => rfl, hl.2 _ _ _⟩
        | false =>
          simp only [Bool.false_eq_true, if_false]
          refine inv_push hi _ ?_ (by intro h; cases h)
          intro w' h'
          cases h'
          exact ⟨loc, hl.1, x, hx, hw, (fun h => by rw [ht] at h; cases h), hl.2 _ _ _⟩

theorem amFlagVal_amLeaves (k : Kind) : k.amFlagVal = k.amLeaves := by cases k <;> rfl

theorem inv_issueAm {c : Cfg} {s : St} (hi : Inv c s) {k : Kind} {obj : Obj}
    {ctx : Option (Nat × Nat)} {tgt : Nat} (ht : tgt < c.npes) (hd : ¬ (c.amoDirect = true ∧ c.rma = .direct)) :
    Inv c (issueAm s k obj ctx tgt) := by
  unfold issueAm
  rw [amFlagVal_amLeaves]
  cases hk : k.amLeaves with
  | true =>
    simp only [if_true]
    have h1 : Inv c { s with amFlag := fun q => if q = tgt then true else s.amFlag q } := by
      refine ⟨hi.len, hi.uniq, hi.natt, hi.dynw, hi.win, ?_⟩
      intro p hp hv
      obtain ⟨h1, h2, h3⟩ := hi.am p hp hv
      refine ⟨?_, h2, h3⟩
      show (if p.tgt = tgt then true else s.amFlag p.tgt) = true
      split
      · rfl
      · exact h1
    refine inv_push h1 ⟨.am, tgt, ctx, obj, s.ep⟩ (by intro w h; cases h) ?_
    intro _
    exact ⟨by simp, ht, hd⟩
  | false =>
    simp only [Bool.false_eq_true, if_false]
    have h1 := inv_drop hi (fun p => p.via == .am && p.tgt == tgt)
    refine ⟨h1.len, h1.uniq, h1.natt, h1.dynw, h1.win, ?_⟩
    intro p hp hv
    obtain ⟨a1, a2, a3⟩ := h1.am p hp hv
    refine ⟨?_, a2, a3⟩
    show (if p.tgt = tgt then false else s.amFlag p.tgt) = true
    have hp2 := (List.mem_filter.mp hp).2
    rw [if_neg]
    · exact a1
    · rintro rfl
      simp [hv] at hp2

theorem inv_issue {c : Cfg} {s s' : St} (hi : Inv c s) {ctx : Option (Nat × Nat)} {addr : BitVec 64} {n tgt : Nat}
    {k : Kind} {gpu : Bool} (h : issue c s ctx addr n tgt k gpu = .ok s') : Inv c s' := by
  unfold issue at h
  split at h
  · cases h; exact hi
  · split at h
    · cases h
    · rename_i htgt
      cases hl : lookup c s ctx addr with
      | ok r =>
        rw [hl] at h
        simp only [Res.bind] at h
        split at h
        · exact inv_issueDirect hi (lookup_visited hi hl) h
        · rename_i hd
          cases h
          refine inv_issueAm hi (by omega) ?_
          rintro ⟨h1, h2⟩
          apply hd
          unfold Cfg.isDirect
          rw [h1, h2]
          simp
      | abort => rw [hl] at h; cases h
      | ub => rw [hl] at h; cases h
      | hang => rw [hl] at h; cases h

/-- what a series of flushes may change: outstanding operations go, flags are cleared -/
structure Mono (c : Cfg) (s s' : St) : Prop where
  inv : Inv c s'
  locs : quietLocs c s' = quietLocs c s
  pend : ∀ p ∈ s'.pend, p ∈ s.pend
  am : s'.amFlag = s.amFlag
  ep : s'.ep = s.ep
  ictx : ∀ l x', s'.ictx l = some x' → ∃ x, s.ictx l = some x ∧ x'.win = x.win ∧ (x'.flag = true → x.flag = true)

theorem Mono.refl {c : Cfg} {s : St} (hi : Inv c s) : Mono c s s :=
  ⟨hi, rfl, fun _ h => h, rfl, rfl, fun _ x h => ⟨x, h, rfl, fun h => h⟩⟩

theorem Mono.trans {c : Cfg} {s s1 s2 : St} (a : Mono c s s1) (b : Mono c s1 s2) : Mono c s s2 := by
  refine ⟨b.inv, b.locs.trans a.locs, fun p h => a.pend p (b.pend p h), b.am.trans a.am, b.ep.trans a.ep, ?_⟩
  intro l x2 h2
  obtain ⟨x1, h1, w1, f1⟩ := b.ictx l x2 h2
  obtain ⟨x, h, w, f⟩ := a.ictx l x1 h1
  exact ⟨x, h, w1.trans w, fun e => f (f1 e)⟩

/-- after a flush of slot `l`: with tracking its flag is 0, without tracking its window has nothing outstanding -/
def Clean (c : Cfg) (s : St) (l : Loc) : Prop :=
  ∀ x, s.ictx l = some x → (c.tracking = true → x.flag = false) ∧
    (c.tracking = false → ∀ w, x.win = some w → ∀ p ∈ s.pend, p.via ≠ .win w)

theorem Clean.mono {c : Cfg} {s s' : St} {l : Loc} (h : Clean c s l) (m : Mono c s s') : Clean c s' l := by
  intro x' hx'
  obtain ⟨x, hx, hw, hf⟩ := m.ictx l x' hx'
  obtain ⟨h1, h2⟩ := h x hx
  refine ⟨fun t => ?_, fun t w e p hp => h2 t w (hw ▸ e) p (m.pend p hp)⟩
  cases hb : x'.flag with
  | false => rfl
  | true => rw [h1 t] at hf; exact absurd (hf hb) (by simp)

theorem mono_flushWin {c : Cfg} {s : St} (hi : Inv c s) (w : Nat) : Mono c s (s.flushWin w) :=
  ⟨inv_drop hi _, rfl, fun _ hp => (List.mem_filter.mp hp).1, rfl, rfl,
    fun l x h => ⟨x, by unfold St.flushWin at h; rw [ictx_drop] at h; exact h, rfl, fun h => h⟩⟩

theorem flushWin_none (s : St) (w : Nat) : ∀ p ∈ (s.flushWin w).pend, p.via ≠ .win w := by
  intro p hp he
  have := (List.mem_filter.mp hp).2
  simp [he] at this

theorem flushLoc_inv {c : Cfg} {s s' : St} (hi : Inv c s) {l : Loc} (h : flushLoc c s l = .ok s') :
    Mono c s s' ∧ Clean c s' l ∧ ∃ x, s.ictx l = some x ∧
      ((c.tracking = true ∧ x.flag = false) ∨ ∃ w, x.win = some w ∧ ∀ p ∈ s'.pend, p.via ≠ .win w) := by
  unfold flushLoc at h
  cases hx : s.ictx l with
  | none => rw [hx] at h; cases h
  | some x =>
    rw [hx] at h
    dsimp only at h
    split at h
    · rename_i ht
      cases h
      simp only [Bool.and_eq_true, Bool.not_eq_eq_eq_not, Bool.not_true] at ht
      refine ⟨Mono.refl hi, ?_, x, rfl, Or.inl ht⟩
      intro y hy
      rw [hx] at hy; cases hy
      exact ⟨fun _ => ht.2, fun h => by rw [ht.1] at h; cases h⟩
    · cases hw : x.win with
      | none => rw [hw] at h; cases h
      | some w =>
        rw [hw] at h
        simp only [Res.ok.injEq] at h
        have hnp := flushWin_none s w
        have hd := mono_flushWin hi w
        have hx' : (s.flushWin w).ictx l = some x := by unfold St.flushWin; rw [ictx_drop]; exact hx
        split at h
        · rename_i ht
          subst h
          refine ⟨hd.trans ⟨inv_setFalse hd.inv l w x hx' hw hnp, by rw [quietLocs_setFlag],
            fun p hp => by rw [pend_setFlag] at hp; exact hp, by rw [amFlag_setFlag], by rw [ep_setFlag], ?_⟩, ?_, x, rfl,
            Or.inr ⟨w, hw, fun p hp => by rw [pend_setFlag] at hp; exact hnp p hp⟩⟩
          · intro l' y hy
            rw [ictx_setFlag] at hy
            split at hy
            · cases hz : (s.flushWin w).ictx l' with
              | none => rw [hz] at hy; cases hy
              | some z => rw [hz] at hy; cases hy; exact ⟨z, rfl, rfl, by simp⟩
            · exact ⟨y, hy, rfl, fun h => h⟩
          · intro y hy
            rw [ictx_setFlag, if_pos rfl, hx'] at hy
            cases hy
            exact ⟨fun _ => rfl, fun h => by rw [ht] at h; cases h⟩
        · rename_i ht
          subst h
          refine ⟨hd, ?_, x, rfl, Or.inr ⟨w, hw, hnp⟩⟩
          intro y hy
          rw [hx'] at hy; cases hy
          refine ⟨fun h => absurd h ht, fun _ w' hw' => ?_⟩
          rw [hw] at hw'; cases hw'
          exact hnp

theorem flushLocs_inv {c : Cfg} {s s' : St} (hi : Inv c s) {ls : List Loc} (h : flushLocs c s ls = .ok s') :
    Mono c s s' ∧ ∀ l ∈ ls, Clean c s' l := by
  induction ls generalizing s with
  | nil => cases h; exact ⟨Mono.refl hi, by simp⟩
  | cons l t ih =>
    simp only [flushLocs] at h
    cases hf : flushLoc c s l with
    | ok s1 =>
      rw [hf] at h
      simp only [Res.bind] at h
      obtain ⟨m, cl, _⟩ := flushLoc_inv hi hf
      obtain ⟨m', cl'⟩ := ih m.inv h
      refine ⟨m.trans m', ?_⟩
      intro l' hl'
      rcases List.mem_cons.mp hl' with rfl | hl'
      · exact cl.mono m'
      · exact cl' l' hl'
    | abort => rw [hf] at h; cases h
    | ub => rw [hf] at h; cases h
    | hang => rw [hf] at h; cases h

/-- after all slots have been flushed nothing is outstanding on a window -/
theorem flushLocs_none {c : Cfg} {s s' : St} (hi : Inv c s) (h : flushLocs c s (quietLocs c s) = .ok s') :
    ∀ p ∈ s'.pend, p.via = .am := by
  obtain ⟨m, cl⟩ := flushLocs_inv hi h
  intro p hp
  cases hv : p.via with
  | am => rfl
  | win w =>
    obtain ⟨l, hl, x, hx, hw, hf⟩ := m.inv.win p hp w hv
    rw [m.locs] at hl
    obtain ⟨h1, h2⟩ := cl l hl x hx
    cases ht : c.tracking with
    | true => rw [hf.1 ht] at h1; exact absurd (h1 ht) (by simp)
    | false => exact absurd hv (h2 ht w hw p hp)

theorem inv_amFlush {c : Cfg} {s : St} (hi : Inv c s) (pes : List Nat) : Inv c (amFlush c s pes) := by
  unfold amFlush
  split
  · exact hi
  · have h1 := inv_drop hi (fun p => p.via == .am && (pes.contains p.tgt && s.amFlag p.tgt))
    refine ⟨h1.len, h1.uniq, h1.natt, h1.dynw, h1.win, ?_⟩
    intro p hp hv
    obtain ⟨a1, a2, a3⟩ := h1.am p hp hv
    refine ⟨?_, a2, a3⟩
    have hp2 := (List.mem_filter.mp hp).2
    have a1' : s.amFlag p.tgt = true := a1
    show (if pes.contains p.tgt then false else s.amFlag p.tgt) = true
    rw [if_neg]
    · exact a1
    · intro hc
      dsimp only at hp2
      rw [hv, hc, a1'] at hp2
      simp at hp2

/-- nothing is left to the PEs that were flushed -/
theorem amFlush_none {c : Cfg} {s : St} (hi : Inv c s) (pes : List Nat) :
    ∀ p ∈ (amFlush c s pes).pend, p.via = .am → p.tgt ∉ pes := by
  intro p hp hv hm
  unfold amFlush at hp
  split at hp
  · rename_i hd
    obtain ⟨_, _, h3⟩ := hi.am p hp hv
    apply h3
    simpa using hd
  · have hp1 := (List.mem_filter.mp hp).1
    have hp2 := (List.mem_filter.mp hp).2
    obtain ⟨h1, _, _⟩ := hi.am p hp1 hv
    dsimp only at hp2
    rw [hv, h1] at hp2
    simp [hm] at hp2

theorem amFlush_sub (c : Cfg) (s : St) (pes : List Nat) : ∀ p ∈ (amFlush c s pes).pend, p ∈ s.pend := by
  intro p hp
  unfold amFlush at hp
  split at hp
  · exact hp
  · exact (List.mem_filter.mp hp).1

theorem amFlush_ep (c : Cfg) (s : St) (pes : List Nat) : (amFlush c s pes).ep = s.ep := by
  unfold amFlush; split <;> rfl

theorem fenceLocs_eq (c : Cfg) (s : St) : fenceLocs c s = quietLocs c s := rfl

/-- quiet on the default context keeps the invariant and leaves nothing outstanding -/
theorem quiet_none {c : Cfg} {s s' : St} (hi : Inv c s) (h : quiet c s none = .ok s') :
    Inv c s' ∧ s'.pend = [] ∧ s'.ep = s.ep := by
  unfold quiet at h
  dsimp only at h
  cases hf : flushLocs c s (quietLocs c s) with
  | ok s1 =>
    rw [hf] at h
    simp only [Res.bind, Res.ok.injEq] at h
    subst h
    obtain ⟨m, _⟩ := flushLocs_inv hi hf
    have h1 := flushLocs_none hi hf
    refine ⟨inv_amFlush m.inv _, ?_, by rw [amFlush_ep]; exact m.ep⟩
    rw [List.eq_nil_iff_forall_not_mem]
    intro p hp
    have hv := h1 p (amFlush_sub c s1 _ p hp)
    have ht := (m.inv.am p (amFlush_sub c s1 _ p hp) hv).2.1
    exact amFlush_none m.inv _ p hp hv (List.mem_range.mpr ht)
  | abort => rw [hf] at h; cases h
  | ub => rw [hf] at h; cases h
  | hang => rw [hf] at h; cases h

theorem fence_quiet (c : Cfg) (s : St) (ctx : Option (Nat × Nat)) : fence c s ctx = quiet c s ctx := by
  cases ctx <;> rfl

theorem quiet_inv {c : Cfg} {s s' : St} (hi : Inv c s) {ctx : Option (Nat × Nat)} (h : quiet c s ctx = .ok s') :
    Inv c s' ∧ (∀ p ∈ s'.pend, p ∈ s.pend) ∧ s'.ep = s.ep := by
  cases ctx with
  | none =>
    obtain ⟨a, b, e⟩ := quiet_none hi h
    exact ⟨a, by rw [b]; simp, e⟩
  | some q =>
    obtain ⟨m, _⟩ := flushLoc_inv hi h
    exact ⟨m.inv, m.pend, m.ep⟩

/-! ## The space calls -/

/-- the windows of one space -/
theorem ictx_dflt {s : St} {x : Sp} (h : s.find x.name = some x) : s.ictx (.dflt x.name) = some x.dflt := by
  simp [St.ictx, h]

/-- A change of the spaces called `name` only: other slots read the same. -/
theorem ictx_updSp_ne (s s' : St) (nm : Nat) (f : Sp → Sp) (hf : ∀ x, (f x).name = x.name)
    (hs : s'.spaces = updSp s.spaces nm f) (h1 : s'.symm = s.symm) (h2 : s'.heap = s.heap) (h3 : s'.data = s.data)
    {l : Loc} (hl : l ≠ .dflt nm ∧ ∀ i, l ≠ .ctx nm i) : s'.ictx l = s.ictx l := by
  have key : ∀ n, n ≠ nm → s'.find n = s.find n := by
    intro n hn
    unfold St.find
    rw [hs, find_updSp _ _ _ _ hf]
    simp [hn]
  cases l with
  | symm => simp [St.ictx, h1]
  | heap => simp [St.ictx, h2]
  | data => simp [St.ictx, h3]
  | dflt n =>
    simp only [St.ictx]
    rw [key n (fun e => hl.1 (by rw [e]))]
  | ctx n i =>
    simp only [St.ictx]
    rw [key n (fun e => hl.2 i (by rw [e]))]

theorem quietLocs_updSp {c : Cfg} {s s' : St} {nm : Nat} {f : Sp → Sp} (hf : ∀ x, (f x).name = x.name ∧ (f x).nctx = x.nctx)
    (hs : s'.spaces = updSp s.spaces nm f) : quietLocs c s' = quietLocs c s := by
  unfold quietLocs
  rw [hs, updSp, flatMap_congr' s.spaces _ (spaceLocs c) (spaceLocs c)]
  intro x
  split
  · unfold spaceLocs; rw [(hf x).1, (hf x).2]
  · rfl

theorem uniq_updSp {c : Cfg} {s s' : St} (hi : Inv c s) {nm : Nat} {f : Sp → Sp} (hf : ∀ x, (f x).name = x.name)
    (hs : s'.spaces = updSp s.spaces nm f) : ∀ x ∈ s'.spaces, s'.find x.name = some x := by
  intro x hx
  rw [hs] at hx
  obtain ⟨y, hy, rfl⟩ := List.mem_map.mp hx
  have hn : (if y.name = nm then f y else y).name = y.name := by split <;> simp [hf]
  have := hi.uniq y hy
  unfold St.find at this ⊢
  rw [hn, hs, find_updSp _ _ _ _ hf, this]
  rfl

theorem mem_updSp {l : List Sp} {nm : Nat} {f : Sp → Sp} {x : Sp} (h : x ∈ updSp l nm f) :
    (∃ y ∈ l, y.name = nm ∧ x = f y) ∨ (x ∈ l ∧ x.name ≠ nm) := by
  obtain ⟨y, hy, rfl⟩ := List.mem_map.mp h
  by_cases e : y.name = nm
  · rw [if_pos e]; exact Or.inl ⟨y, hy, e, rfl⟩
  · rw [if_neg e]; exact Or.inr ⟨hy, e⟩

/-- the contexts' `used` marks -/
def St.setUsed (s : St) (nm i : Nat) (b : Bool) : St :=
  { s with spaces := updSp s.spaces nm (fun x =>
      { x with ctxs := x.ctxs.map (fun l => l.modify i (fun z => { z with used := b })) }) }

theorem ictx_setUsed (s : St) (nm i : Nat) (b : Bool) (l : Loc) : (s.setUsed nm i b).ictx l = s.ictx l := by
  unfold St.setUsed
  cases l with
  | symm => rfl
  | heap => rfl
  | data => rfl
  | dflt n =>
    simp only [St.ictx, St.find]
    rw [find_updSp _ _ _ _ (by intro x; rfl)]
    cases s.spaces.find? (fun x => x.name == n) with
    | none => rfl
    | some x => by_cases e : n = nm <;> simp [e]
  | ctx n j =>
    simp only [St.ictx, St.find]
    rw [find_updSp _ _ _ _ (by intro x; rfl)]
    cases s.spaces.find? (fun x => x.name == n) with
    | none => rfl
    | some x =>
      by_cases e : n = nm
      · subst e
        cases hc : x.ctxs with
        | none => simp [hc]
        | some l =>
          by_cases e2 : i = j
          · subst e2; simp [hc, Option.map_map, Function.comp_def]
          · simp [hc, e2]
      · simp [e]

/-- Changing the contexts' `used` marks changes no window and no flag. -/
theorem inv_used {c : Cfg} {s : St} (hi : Inv c s) (nm i : Nat) (b : Bool) : Inv c (s.setUsed nm i b) := by
  have hs := ictx_setUsed s nm i b
  refine ⟨?_, uniq_updSp hi (f := fun x => { x with ctxs := x.ctxs.map (fun l => l.modify i
    (fun z => { z with used := b })) }) (by intro x; rfl) rfl, ?_, ?_, ?_, hi.am⟩
  · intro x hx l hl
    rcases mem_updSp hx with ⟨y, hy, _, rfl⟩ | ⟨hx, _⟩
    · cases hc : y.ctxs with
      | none => simp [hc] at hl
      | some k =>
        simp only [hc, Option.map_some, Option.some.injEq] at hl
        rw [← hl, List.length_modify]
        exact hi.len y hy k hc
    · exact hi.len x hx l hl
  · intro x hx ha
    rcases mem_updSp hx with ⟨y, hy, _, rfl⟩ | ⟨hx, _⟩
    · obtain ⟨h1, h2⟩ := hi.natt y hy ha
      exact ⟨by simp [h1], h2⟩
    · exact hi.natt x hx ha
  · intro hd x hx
    rcases mem_updSp hx with ⟨y, hy, _, rfl⟩ | ⟨hx, _⟩
    · exact hi.dynw hd y hy
    · exact hi.dynw hd x hx
  · intro p hp w hw
    obtain ⟨l, hl, x, hx⟩ := hi.win p hp w hw
    refine ⟨l, ?_, x, by rw [hs]; exact hx.1, hx.2⟩
    rw [quietLocs_updSp (s := s) (nm := nm) (f := fun x => { x with ctxs := x.ctxs.map (fun l => l.modify i
      (fun z => { z with used := b })) }) (by intro x; exact ⟨rfl, rfl⟩) rfl]
    exact hl

theorem inv_create {c : Cfg} {s : St} (hi : Inv c s) {nm : Nat} {a : Attr} {k : Nat} (hn : s.find nm = none) :
    Inv c { s with spaces := s.spaces ++
      [{ name := nm, attr := a, nctx := k, dflt := ⟨none, false⟩, ctxs := none, att := false }] } := by
  set s' : St := { s with spaces := s.spaces ++
      [{ name := nm, attr := a, nctx := k, dflt := ⟨none, false⟩, ctxs := none, att := false }] } with hs'
  have hfind : ∀ n x, s.find n = some x → s'.find n = some x := by
    intro n x h
    unfold St.find at h ⊢
    rw [hs', List.find?_append, h]
    rfl
  have hold : ∀ l x, s.ictx l = some x → s'.ictx l = some x := by
    intro l x h
    cases l with
    | symm => exact h
    | heap => exact h
    | data => exact h
    | dflt n =>
      simp only [St.ictx] at h ⊢
      cases hf : s.find n with
      | none => rw [hf] at h; cases h
      | some y => rw [hfind n y hf, ← hf]; exact h
    | ctx n i =>
      simp only [St.ictx] at h ⊢
      cases hf : s.find n with
      | none => rw [hf] at h; cases h
      | some y => rw [hfind n y hf, ← hf]; exact h
  refine ⟨?_, ?_, ?_, ?_, ?_, hi.am⟩
  · intro x hx l hl
    rcases List.mem_append.mp hx with hx | hx
    · exact hi.len x hx l hl
    · rw [List.mem_singleton] at hx; subst hx; cases hl
  · intro x hx
    rcases List.mem_append.mp hx with hx | hx
    · exact hfind _ _ (hi.uniq x hx)
    · rw [List.mem_singleton] at hx
      subst hx
      unfold St.find at hn ⊢
      rw [hs', List.find?_append, hn]
      simp
  · intro x hx ha
    rcases List.mem_append.mp hx with hx | hx
    · exact hi.natt x hx ha
    · rw [List.mem_singleton] at hx; subst hx; exact ⟨rfl, rfl⟩
  · intro hd x hx
    rcases List.mem_append.mp hx with hx | hx
    · exact hi.dynw hd x hx
    · rw [List.mem_singleton] at hx; subst hx; rfl
  · intro p hp w hw
    obtain ⟨l, hl, x, hx⟩ := hi.win p hp w hw
    refine ⟨l, ?_, x, hold l x hx.1, hx.2⟩
    rw [mem_quietLocs] at hl ⊢
    rcases hl with h | h | ⟨hd, y, hy, rfl⟩ | ⟨y, hy, i, hi', rfl⟩
    · exact Or.inl h
    · exact Or.inr (Or.inl h)
    · exact Or.inr (Or.inr (Or.inl ⟨hd, y, List.mem_append_left _ hy, rfl⟩))
    · exact Or.inr (Or.inr (Or.inr ⟨y, List.mem_append_left _ hy, i, hi', rfl⟩))

/-- a space that is not attached owns no slot with a window -/
theorem no_win {c : Cfg} {s : St} (hi : Inv c s) {nm : Nat} {x : Sp} (hx : s.find nm = some x) (ha : x.att = false)
    {l : Loc} {y : Ictx} (hy : s.ictx l = some y) {w : Nat} (hw : y.win = some w) :
    l ≠ .dflt nm ∧ ∀ i, l ≠ .ctx nm i := by
  obtain ⟨hm, _⟩ := find_mem hx
  obtain ⟨h1, h2⟩ := hi.natt x hm ha
  constructor
  · rintro rfl
    simp only [St.ictx, hx, Option.map_some, Option.some.injEq] at hy
    rw [← hy, h2] at hw; cases hw
  · rintro i rfl
    simp only [St.ictx, hx, Option.bind_some, h1, Option.bind_none] at hy
    cases hy

theorem inv_attach {c : Cfg} {s : St} (hi : Inv c s) {nm : Nat} {x : Sp} (hx : s.find nm = some x)
    (ha : x.att = false) (nw : Nat) :
    Inv c { s with
        nextWin := nw
        spaces := updSp s.spaces nm (fun y => { y with
          att := true
          dflt := attachDflt c s y
          ctxs := if y.nctx = 0 then none else some (newCtxs (s.nextWin + 1) y.nctx) }) } := by
  set f : Sp → Sp := fun y => { y with
          att := true
          dflt := attachDflt c s y
          ctxs := if y.nctx = 0 then none else some (newCtxs (s.nextWin + 1) y.nctx) } with hf
  refine ⟨?_, uniq_updSp (nm := nm) (f := f) hi (by intro x; rfl) rfl, ?_, ?_, ?_, hi.am⟩
  · intro y hy l hl
    rcases mem_updSp hy with ⟨z, hz, _, rfl⟩ | ⟨hy, _⟩
    · simp only [hf] at hl
      split at hl
      · cases hl
      · cases hl; simp [newCtxs, hf]
    · exact hi.len y hy l hl
  · intro y hy hat
    rcases mem_updSp hy with ⟨z, hz, _, rfl⟩ | ⟨hy, _⟩
    · simp [hf] at hat
    · exact hi.natt y hy hat
  · intro hd y hy
    rcases mem_updSp hy with ⟨z, hz, _, rfl⟩ | ⟨hy, _⟩
    · simp only [hf, attachDflt, hd, if_true]
      exact hi.dynw hd z hz
    · exact hi.dynw hd y hy
  · intro p hp w hw
    obtain ⟨l, hl, y, hy, hyw, hyf⟩ := hi.win p hp w hw
    refine ⟨l, ?_, y, ?_, hyw, hyf⟩
    · rw [quietLocs_updSp (s := s) (nm := nm) (f := f) (by intro x; exact ⟨rfl, rfl⟩) rfl]; exact hl
    · refine Eq.trans ?_ hy
      apply ictx_updSp_ne s _ nm f
      · intro x; rfl
      · rfl
      · rfl
      · rfl
      · rfl
      · exact no_win hi hx ha hy hyw

theorem inv_detach {c : Cfg} {s : St} (hi : Inv c s) {nm : Nat} {x : Sp} (hx : s.find nm = some x) :
    Inv c { s.freeWins ((if c.dyn then [] else [x.dflt.win]) ++ (x.ctxs.getD []).map (fun y => y.ictx.win)) with
        spaces := updSp s.spaces nm (fun y => { y with
          att := false
          dflt := if c.dyn then y.dflt else { y.dflt with win := none }
          ctxs := none }) } := by
  set f : Sp → Sp := fun y => { y with
          att := false
          dflt := if c.dyn then y.dflt else { y.dflt with win := none }
          ctxs := none } with hf
  set ws := (if c.dyn then [] else [x.dflt.win]) ++ (x.ctxs.getD []).map (fun y => y.ictx.win) with hws
  obtain ⟨hm, hxn⟩ := find_mem hx
  have hnd : ∀ y ∈ s.spaces, y.name = nm → y = x := by
    intro y hy e
    have := hi.uniq y hy
    rw [e, hx] at this
    cases this; rfl
  refine ⟨?_, uniq_updSp (nm := nm) (f := f) hi (by intro x; rfl) rfl, ?_, ?_, ?_, ?_⟩
  · intro y hy l hl
    rcases mem_updSp hy with ⟨z, hz, _, rfl⟩ | ⟨hy, _⟩
    · cases hl
    · exact hi.len y hy l hl
  · intro y hy hat
    rcases mem_updSp hy with ⟨z, hz, _, rfl⟩ | ⟨hy, _⟩
    · refine ⟨rfl, ?_⟩
      cases hd : c.dyn with
      | true => simp only [hf, hd, if_true]; exact hi.dynw hd z hz
      | false => simp [hf, hd]
    · exact hi.natt y hy hat
  · intro hd y hy
    rcases mem_updSp hy with ⟨z, hz, _, rfl⟩ | ⟨hy, _⟩
    · simp only [hf, hd, if_true]
      exact hi.dynw hd z hz
    · exact hi.dynw hd y hy
  · intro p hp w hw
    obtain ⟨hp1, hp2⟩ := List.mem_filter.mp hp
    have hnw : some w ∉ ws := by
      intro h
      simp only [Bool.not_eq_eq_eq_not, Bool.not_true, List.any_eq_false] at hp2
      have := hp2 (some w) h
      simp [hw] at this
    obtain ⟨l, hl, y, hy, hyw, hyf⟩ := hi.win p hp1 w hw
    have hne : l ≠ .dflt nm ∧ ∀ i, l ≠ .ctx nm i := by
      constructor
      · rintro rfl
        rw [mem_quietLocs] at hl
        rcases hl with ⟨_, h⟩ | ⟨_, h⟩ | ⟨hd, _⟩ | ⟨_, _, _, _, h⟩
        · cases h
        · rcases h with h | h <;> cases h
        · apply hnw
          simp only [St.ictx, hx, Option.map_some, Option.some.injEq] at hy
          rw [hws, ← hyw, ← hy]
          simp [hd]
        · cases h
      · rintro i rfl
        apply hnw
        simp only [St.ictx, hx, Option.bind_some] at hy
        cases hc : x.ctxs with
        | none => rw [hc] at hy; cases hy
        | some k =>
          rw [hc, Option.bind_some] at hy
          cases hk : k[i]? with
          | none => rw [hk] at hy; cases hy
          | some z =>
            rw [hk] at hy
            cases hy
            rw [hws, hc, ← hyw]
            simp only [Option.getD_some]
            exact List.mem_append_right _ (List.mem_map.mpr ⟨z, List.mem_of_getElem? hk, rfl⟩)
    refine ⟨l, ?_, y, ?_, hyw, hyf⟩
    · rw [quietLocs_updSp (s := s) (nm := nm) (f := f) (by intro x; exact ⟨rfl, rfl⟩) rfl]; exact hl
    · refine Eq.trans ?_ hy
      apply ictx_updSp_ne s _ nm f
      · intro x; rfl
      · rfl
      · rfl
      · rfl
      · rfl
      · exact hne
  · intro p hp hv
    exact hi.am p (List.mem_filter.mp hp).1 hv

theorem inv_destroy {c : Cfg} {s : St} (hi : Inv c s) {nm : Nat} {x : Sp} (hx : s.find nm = some x)
    (ha : x.att = false) : Inv c { s with spaces := s.spaces.filter (fun x => x.name != nm) } := by
  set s' : St := { s with spaces := s.spaces.filter (fun x => x.name != nm) } with hs'
  have hfind : ∀ n, n ≠ nm → s'.find n = s.find n := by
    intro n hn
    unfold St.find
    rw [hs']
    dsimp only
    generalize s.spaces = sp
    induction sp with
    | nil => rfl
    | cons y t ih =>
      by_cases e : y.name = nm
      · have e2 : ¬ (y.name = n) := fun h => hn (h.symm.trans e)
        simp only [List.filter_cons, e, bne_self_eq_false, Bool.false_eq_true, if_false, List.find?_cons]
        rw [ih, show (nm == n) = false by simpa using fun h => hn h.symm]
      · simp only [List.filter_cons, show (y.name != nm) = true by simpa using e, if_true, List.find?_cons]
        split
        · rfl
        · exact ih
  refine ⟨fun y hy => hi.len y (List.mem_filter.mp hy).1, ?_, fun y hy => hi.natt y (List.mem_filter.mp hy).1,
    fun hd y hy => hi.dynw hd y (List.mem_filter.mp hy).1, ?_, hi.am⟩
  · intro y hy
    obtain ⟨h1, h2⟩ := List.mem_filter.mp hy
    rw [hfind y.name (by simpa using h2)]
    exact hi.uniq y h1
  · intro p hp w hw
    obtain ⟨l, hl, y, hy, hyw, hyf⟩ := hi.win p hp w hw
    obtain ⟨n1, n2⟩ := no_win hi hx ha hy hyw
    refine ⟨l, ?_, y, ?_, hyw, hyf⟩
    · rw [mem_quietLocs] at hl ⊢
      rcases hl with h | h | ⟨hd, z, hz, rfl⟩ | ⟨z, hz, i, hi', rfl⟩
      · exact Or.inl h
      · exact Or.inr (Or.inl h)
      · refine Or.inr (Or.inr (Or.inl ⟨hd, z, List.mem_filter.mpr ⟨hz, ?_⟩, rfl⟩))
        simp only [bne_iff_ne]
        exact fun e => n1 (by rw [e])
      · refine Or.inr (Or.inr (Or.inr ⟨z, List.mem_filter.mpr ⟨hz, ?_⟩, i, hi', rfl⟩))
        simp only [bne_iff_ne]
        exact fun e => n2 i (by rw [e])
    · cases l with
      | symm => exact hy
      | heap => exact hy
      | data => exact hy
      | dflt n =>
        simp only [St.ictx] at hy ⊢
        rw [hfind n (fun e => n1 (by rw [e]))]; exact hy
      | ctx n i =>
        simp only [St.ictx] at hy ⊢
        rw [hfind n (fun e => n2 i (by rw [e]))]; exact hy

theorem step_inv {c : Cfg} {s s' : St} {op : Op} (hi : Inv c s) (hl : legal s op) (h : step c s op = .ok s') :
    Inv c s' := by
  cases op with
  | issue ctx addr n tgt k gpu => exact inv_issue hi h
  | complete d => cases h; exact inv_drop hi d
  | quiet ctx => exact (quiet_inv hi h).1
  | fence ctx => exact (quiet_inv hi (by rw [← fence_quiet]; exact h)).1
  | create nm a k =>
    simp only [step] at h
    split at h
    · cases h
    · rename_i hn
      cases h
      exact inv_create hi (by simpa using hn)
  | attach nm =>
    simp only [step] at h
    cases hx : s.find nm with
    | none => rw [hx] at h; cases h
    | some x =>
      rw [hx] at h
      dsimp only at h
      split at h
      · cases h
      · cases h
        exact inv_attach hi hx (hl x hx) _
  | detach nm =>
    simp only [step] at h
    cases hx : s.find nm with
    | none => rw [hx] at h; cases h
    | some x =>
      rw [hx] at h
      dsimp only at h
      split at h
      · cases h
      · split at h
        · cases h
        · split at h
          · cases h
          · cases h
            exact inv_detach hi hx
  | destroy nm =>
    simp only [step] at h
    cases hx : s.find nm with
    | none => rw [hx] at h; cases h
    | some x =>
      rw [hx] at h
      cases h
      exact inv_destroy hi hx (hl x hx)
  | ctxCreate nm i =>
    simp only [step] at h
    split at h
    · cases h
    · split at h
      · cases h
      · cases h; exact inv_used hi nm i true
  | ctxDestroy nm i =>
    simp only [step] at h
    split at h
    · cases h
    · split at h
      · cases h; exact inv_used hi nm i false
      · cases h

theorem winFlush_ok {c : Cfg} {s s' : St} (hi : Inv c s) {l : Loc} (h : winFlush s l = .ok s') :
    ∃ x w, s.ictx l = some x ∧ x.win = some w ∧ s' = s.flushWin w ∧ Mono c s s' := by
  unfold winFlush at h
  cases hx : s.ictx l with
  | none => rw [hx] at h; cases h
  | some x =>
    rw [hx, Option.bind_some] at h
    cases hw : x.win with
    | none => rw [hw] at h; cases h
    | some w =>
      rw [hw] at h
      cases h
      exact ⟨x, w, rfl, hw, rfl, mono_flushWin hi w⟩

theorem ictx_flushWin (s : St) (w : Nat) (l : Loc) : (s.flushWin w).ictx l = s.ictx l := ictx_drop s _ l

/-- the local part of a barrier: state after the window flushes -/
theorem barrierLocal_ok {c : Cfg} {s s' : St} (hi : Inv c s) {pes : List Nat} (h : barrierLocal c s pes = .ok s') :
    ∃ s2, Mono c s s2 ∧ s' = { amFlush c s2 pes with ep := s2.ep + 1 } ∧
      (c.dyn = true → ∀ w, s.symm.win = some w → ∀ p ∈ s2.pend, p.via ≠ .win w) ∧
      (c.dyn = false → ∀ w, (s.heap.win = some w ∨ s.data.win = some w) → ∀ p ∈ s2.pend, p.via ≠ .win w) := by
  unfold barrierLocal at h
  cases hd : c.dyn with
  | true =>
    simp only [hd, if_true] at h
    cases hf : winFlush s .symm with
    | ok s2 =>
      rw [hf] at h
      simp only [Res.bind, Res.ok.injEq] at h
      obtain ⟨x, w, hx, hw, rfl, m⟩ := winFlush_ok hi hf
      refine ⟨_, m, by rw [← h, amFlush_ep], ?_, by simp⟩
      intro _ w' hw'
      cases hx
      rw [hw] at hw'; cases hw'
      exact flushWin_none s w
    | abort => rw [hf] at h; cases h
    | ub => rw [hf] at h; cases h
    | hang => rw [hf] at h; cases h
  | false =>
    simp only [hd, Bool.false_eq_true, if_false] at h
    cases hf : winFlush s .heap with
    | ok s1 =>
      rw [hf] at h
      simp only [Res.bind] at h
      obtain ⟨x, w, hx, hw, rfl, m⟩ := winFlush_ok hi hf
      cases hf2 : winFlush (s.flushWin w) .data with
      | ok s2 =>
        rw [hf2] at h
        simp only [Res.ok.injEq] at h
        obtain ⟨x2, w2, hx2, hw2, rfl, m2⟩ := winFlush_ok m.inv hf2
        refine ⟨_, m.trans m2, by rw [← h, amFlush_ep], by simp, ?_⟩
        intro _ w' hw' p hp
        cases hx
        cases hx2
        rcases hw' with hw' | hw'
        · rw [hw] at hw'; cases hw'
          exact flushWin_none s w p (m2.pend p hp)
        · have e : s.data.win = some w2 := hw2
          rw [e] at hw'; cases hw'
          exact flushWin_none _ w2 p hp
      | abort => rw [hf2] at h; cases h
      | ub => rw [hf2] at h; cases h
      | hang => rw [hf2] at h; cases h
    | abort => rw [hf] at h; cases h
    | ub => rw [hf] at h; cases h
    | hang => rw [hf] at h; cases h

theorem inv_ep {c : Cfg} {s : St} (hi : Inv c s) (e : Nat) : Inv c { s with ep := e } :=
  ⟨hi.len, hi.uniq, hi.natt, hi.dynw, hi.win, hi.am⟩

theorem barrierLocal_inv {c : Cfg} {s s' : St} (hi : Inv c s) {pes : List Nat} (h : barrierLocal c s pes = .ok s') :
    Inv c s' := by
  obtain ⟨s2, m, rfl, _⟩ := barrierLocal_ok hi h
  exact inv_ep (inv_amFlush m.inv pes) _

/-- the invariant holds in every history -/
theorem hist_inv {c : Cfg} {s : St} (h : Hist c s) : Inv c s := by
  induction h with
  | init => exact inv_init c
  | step op _ l e ih => exact step_inv ih l e
  | barrier pes _ e ih => exact barrierLocal_inv ih e

end Verif.Order
