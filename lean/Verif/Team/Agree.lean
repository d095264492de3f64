import Verif.Team.Props
/-!
# C80: all members of a team agree on it
-/
namespace Verif.Team

/-- one team creation: the arguments, which all members of the parent pass alike (`shmem_team_split_strided`,
`shmem_team_split_2d`, team.c L102-212), and which of the two teams of a 2D split -/
inductive Split where
  | strided (start stride size : Int)
  | xaxis (xr : Int)
  | yaxis (xr : Int)
deriving DecidableEq, Repr

/-- the new team of the PE that holds `p`; `none` = `SHMEM_TEAM_INVALID` -/
def Split.on (p : Obj) : Split → Res (Option Obj)
  | .strided a b c => (splitStrided p.comm a b c p.my_pe.toNat).bind fun x => .ok x.team
  | .xaxis xr => (split2d p.comm xr p.my_pe.toNat).bind fun x => .ok x.1
  | .yaxis xr => (split2d p.comm xr p.my_pe.toNat).bind fun x => .ok x.2

/-- PE `me` holds `o` after the splits `hs` (latest first), each of the team that the one before gave -/
inductive Holds (n me : Nat) : List Split → Obj → Prop
  | world : Holds n me [] (worldObj n me)
  | split {hs : List Split} {s : Split} {p o : Obj} : Holds n me hs p → s.on p = .ok (some o) → Holds n me (s :: hs) o

theorem holds_reach {cts n me : Nat} {hs : List Split} {o : Obj} (h : Holds n me hs o) : Reach cts n me o := by
  induction h with
  | world => exact .world
  | @split hs s p o _ e ih =>
    cases s with
    | strided a b c =>
      simp only [Split.on] at e
      cases hx : splitStrided p.comm a b c p.my_pe.toNat with
      | abort => rw [hx] at e; cases e
      | ub => rw [hx] at e; cases e
      | hang => rw [hx] at e; cases e
      | ok x =>
        rw [hx, Res.bind_ok] at e
        obtain ⟨rc, t⟩ := x
        simp only [Res.ok.injEq] at e
        subst e
        exact .strided ih hx
    | xaxis xr =>
      simp only [Split.on] at e
      cases hx : split2d p.comm xr p.my_pe.toNat with
      | abort => rw [hx] at e; cases e
      | ub => rw [hx] at e; cases e
      | hang => rw [hx] at e; cases e
      | ok x =>
        rw [hx, Res.bind_ok] at e
        obtain ⟨t, u⟩ := x
        simp only [Res.ok.injEq] at e
        subst e
        exact .xaxis ih hx
    | yaxis xr =>
      simp only [Split.on] at e
      cases hx : split2d p.comm xr p.my_pe.toNat with
      | abort => rw [hx] at e; cases e
      | ub => rw [hx] at e; cases e
      | hang => rw [hx] at e; cases e
      | ok x =>
        rw [hx, Res.bind_ok] at e
        obtain ⟨t, u⟩ := x
        simp only [Res.ok.injEq] at e
        subst e
        exact .yaxis ih hx

/-- a split gives all members of the new team the same member list -/
theorem teamSplit_agree {comm : List Nat} {color : Nat → Option Int} {r : Nat} {o : Obj} (hr : r < comm.length) (h : teamSplit comm color r = some o) {w : Nat} (hw : w ∈ o.comm) :
    ∃ q o', comm[q]? = some w ∧ teamSplit comm color q = some o' ∧ o'.comm = o.comm := by
  cases hc : color r with
  | none => rw [teamSplit_none hc] at h; cases h
  | some c =>
    have hs := range_filter_sorted comm.length (fun q => color q == some c)
    have hm : ∀ q, q ∈ (List.range comm.length).filter (fun q => color q == some c) ↔ q < comm.length ∧ color q = some c := by
      intro q; rw [List.mem_filter, List.mem_range]; simp
    rw [teamSplit_eq hc hs hm] at h
    simp only [Option.some.injEq] at h
    subst h
    obtain ⟨q, hq, rfl⟩ := List.mem_map.1 hw
    obtain ⟨q1, q2⟩ := (hm q).1 hq
    refine ⟨q, _, ?_, teamSplit_eq q2 hs hm, rfl⟩
    rw [List.getElem?_eq_getElem q1]
    simp [List.getD_eq_getElem?_getD, List.getElem?_eq_getElem q1]

theorem split_agree {n me : Nat} {p p' o : Obj} {s : Split} (g : Good n me p) (e : s.on p = .ok (some o)) {w : Nat} (hw : w ∈ o.comm) :
    w ∈ p.comm ∧ (Good n w p' → p'.comm = p.comm → ∃ o', s.on p' = .ok (some o') ∧ o'.comm = o.comm) := by
  obtain ⟨r, er, hr⟩ := g.rank
  have hrl : r < p.comm.length := by
    by_contra hc
    rw [List.getElem?_eq_none (by omega)] at hr; cases hr
  have key : ∀ {color : Nat → Option Int}, teamSplit p.comm color p.my_pe.toNat = some o → w ∈ p.comm ∧
      (Good n w p' → p'.comm = p.comm → ∃ o', teamSplit p'.comm color p'.my_pe.toNat = some o' ∧ o'.comm = o.comm) := by
    intro color ht
    rw [er, Int.toNat_natCast] at ht
    obtain ⟨q, o', h1, h2, h3⟩ := teamSplit_agree hrl ht hw
    refine ⟨List.mem_of_getElem? h1, fun g' ec => ⟨o', ?_, h3⟩⟩
    obtain ⟨q', eq, hq⟩ := g'.rank
    rw [ec] at hq ⊢
    rw [eq, Int.toNat_natCast]
    have hq1 : q < p.comm.length := by
      by_contra hc
      rw [List.getElem?_eq_none (by omega)] at h1; cases h1
    have : q' = q := ((List.getElem?_inj hq1 g.nodup).1 (h1.trans hq.symm)).symm
    rw [this]; exact h2
  cases s with
  | strided a b c =>
    simp only [Split.on, splitStrided] at e ⊢
    cases hc : stridedCheck p.comm.length a b c with
    | abort => rw [hc] at e; cases e
    | ub => rw [hc] at e; cases e
    | hang => rw [hc] at e; cases e
    | ok x =>
      rw [hc, Res.bind_ok] at e
      cases x with
      | none => simp [Res.bind_ok] at e
      | some e' =>
        simp only at e
        cases hk : collect (fun q => selected (q : Nat) a b e') p.comm.length with
        | abort => rw [hk] at e; cases e
        | ub => rw [hk] at e; cases e
        | hang => rw [hk] at e; cases e
        | ok l =>
          rw [hk, Res.bind_ok, Res.bind_ok] at e
          simp only [Res.ok.injEq] at e
          obtain ⟨k1, k2⟩ := key e
          refine ⟨k1, fun g' ec => ?_⟩
          obtain ⟨o', h1, h2⟩ := k2 g' ec
          refine ⟨o', ?_, h2⟩
          rw [ec] at h1 ⊢
          rw [hc, Res.bind_ok]
          simp only
          rw [hk, Res.bind_ok, Res.bind_ok, h1]
  | xaxis xr =>
    simp only [Split.on, split2d] at e ⊢
    by_cases h0 : xr = 0
    · rw [if_pos h0] at e; cases e
    · rw [if_neg h0] at e
      split at e
      · cases e
      · rename_i hx
        simp only [Res.bind_ok, Res.ok.injEq] at e
        obtain ⟨k1, k2⟩ := key e
        refine ⟨k1, fun g' ec => ?_⟩
        obtain ⟨o', h1, h2⟩ := k2 g' ec
        refine ⟨o', ?_, h2⟩
        rw [ec] at h1 ⊢
        rw [if_neg h0, if_neg hx, Res.bind_ok, h1]
  | yaxis xr =>
    simp only [Split.on, split2d] at e ⊢
    by_cases h0 : xr = 0
    · rw [if_pos h0] at e; cases e
    · rw [if_neg h0] at e
      split at e
      · cases e
      · rename_i hx
        simp only [Res.bind_ok, Res.ok.injEq] at e
        obtain ⟨k1, k2⟩ := key e
        refine ⟨k1, fun g' ec => ?_⟩
        obtain ⟨o', h1, h2⟩ := k2 g' ec
        refine ⟨o', ?_, h2⟩
        rw [ec] at h1 ⊢
        rw [if_neg h0, if_neg hx, Res.bind_ok, h1]

/-- **C80.** All members of a team agree on it: if a PE obtained a team through some splits, then every member of it obtained, through
the same splits, a team with the same members in the same order, and its own number in it is its position in that order. -/
theorem C80_agree {n me : Nat} (hme : me < n) {hs : List Split} {o : Obj} (h : Holds n me hs o) {w : Nat} (hw : w ∈ o.comm) :
    ∃ o', Holds n w hs o' ∧ o'.comm = o.comm ∧ o'.n_pes = o.n_pes ∧ o'.my_pe = (o.comm.idxOf w : Nat) := by
  have main : w < n ∧ ∃ o', Holds n w hs o' ∧ o'.comm = o.comm := by
    induction h with
    | world =>
      have := List.mem_range.1 hw
      exact ⟨this, _, .world, rfl⟩
    | @split hs s p o hp e ih =>
      have g := reach_good hme (holds_reach (cts := 0) hp)
      obtain ⟨h1, h2⟩ := ih (split_agree (p' := p) g e hw).1
      obtain ⟨p', hp', ec⟩ := h2
      obtain ⟨o', h3, h4⟩ := (split_agree (p' := p') g e hw).2 (reach_good h1 (holds_reach (cts := 0) hp')) ec
      exact ⟨h1, o', .split hp' h3, h4⟩
  obtain ⟨hlt, o', h1, h2⟩ := main
  have g := reach_good hme (holds_reach (cts := 0) h)
  have g' := reach_good hlt (holds_reach (cts := 0) h1)
  refine ⟨o', h1, h2, by rw [g.size, g'.size, h2], ?_⟩
  obtain ⟨r, e, hr⟩ := g'.rank
  have hi : r < o'.comm.length := by
    by_contra hc
    rw [List.getElem?_eq_none (by omega)] at hr; cases hr
  rw [e]
  have hx : o'.comm[o'.comm.idxOf w]? = some w := by
    have : w ∈ o'.comm := by rw [h2]; exact hw
    rw [List.getElem?_eq_getElem (List.idxOf_lt_length_of_mem this), List.getElem_idxOf]
  rw [(List.getElem?_inj hi g'.nodup).1 (hr.trans hx.symm), h2]

/-- **C80.** A PE is in no team it was not split into: the team it holds contains it, and the teams of one 2D split or of one strided
split never give a handle to a PE outside. -/
theorem C80_self {n me : Nat} (hme : me < n) {hs : List Split} {o : Obj} (h : Holds n me hs o) : me ∈ o.comm ∧ o.comm.Nodup ∧ ∀ w ∈ o.comm, w < n := by
  have g := reach_good hme (holds_reach (cts := 0) h)
  obtain ⟨r, -, hr⟩ := g.rank
  exact ⟨List.mem_of_getElem? hr, g.nodup, g.bound⟩

/-- every second PE of 10, then the second row of width 2 of those: PEs 4 and 6 -/
example : Holds 10 6 [.xaxis 2, .strided 0 2 5] ⟨[4, 6], 1, 2⟩ :=
  .split (.split .world (show _ = Res.ok (some (⟨[0, 2, 4, 6, 8], 3, 5⟩ : Obj)) by decide +kernel)) (by decide +kernel)

end Verif.Team
