import Verif.Lnk.Unlink
/-!
# `unlink_large_chunk` on a trie in memory: all cases
-/
namespace Verif.Lnk
open Dl (Tree dir keyBits idx2bit)
open Tag (Mem ld st ld_st_same ld_st_ne ld_congr st_of_ne chunksize)

section
variable {A : Nat} {m : Mem} {i : Nat}

/-- `F->bk = R; R->fd = F` inside the ring of a node -/
theorem splice {p s b : Nat} {q : List Nat} {l r : Tree} (g : Good A (.node s p q l r) b) {wf wr : Nat} (hf : wf ∈ p :: q) (hr : wr ∈ p :: q) {m1 : Mem}
    (hm : m1 = setFd (setBk m (A + wf) (A + wr)) (A + wr) (A + wf)) :
    (∀ y ∈ p :: q, fd m1 (A + y) = if y = wr then A + wf else fd m (A + y)) ∧
    (∀ y ∈ p :: q, bk m1 (A + y) = if y = wf then A + wr else bk m (A + y)) ∧
    (∀ y, (∀ z ∈ p :: q, y < A + z + 16 ∨ A + z + 32 ≤ y) → m1 y = m y) := by
  have sm : ∀ y ∈ p :: q, ∀ y' ∈ p :: q, y = y' ∨ y + 64 ≤ y' ∨ y' + 64 ≤ y := fun y hy y' hy' => g.sep y s y' s (g.chunk hy) (g.chunk hy')
  have lt1 := g.lt wf s (g.chunk hf)
  have lt2 := g.lt wr s (g.chunk hr)
  refine ⟨fun y hy => ?_, fun y hy => ?_, fun y hy => ?_⟩
  · have h1 := sm y hy wf hf
    have h2 := sm y hy wr hr
    simp only [hm, fd, setFd, setBk]
    by_cases e : y = wr
    · rw [if_pos e, e, ld_st_same (by omega)]
    · rw [if_neg e, ld_st_ne (by omega), ld_st_ne (by omega)]
  · have h1 := sm y hy wf hf
    have h2 := sm y hy wr hr
    simp only [hm, bk, setFd, setBk]
    rw [ld_st_ne (by omega)]
    by_cases e : y = wf
    · rw [if_pos e, e, ld_st_same (by omega)]
    · rw [if_neg e, ld_st_ne (by omega)]
  · have h1 := hy wf hf
    have h2 := hy wr hr
    simp only [hm, setFd, setBk]
    rw [st_of_ne (by omega), st_of_ne (by omega)]

/-- L3739-3753: a leaf below the child `k` of `p` is taken out -/
theorem pop_spec {base p s b par : Nat} {q : List Nat} {l r : Tree} (hb : base ≤ A) (h0 : 0 < A) (g : Good A (.node s p q l r) b) (h : TRep A m i par (.node s p q l r))
    (d : Bool) (hk : kid l r d ≠ .leaf) :
    ∃ s' p' q' k' rp par', (kid l r d).popLeaf = some ((s', p', q'), k') ∧ leafLoop m (2 ^ 64) (ptr A (kid l r d)) (childAt (A + p) d) = some (A + p', rp) ∧ base ≤ rp ∧
      NRep A (st m rp 0) i par' p' q' (fun _ => 0) ∧ TRep A (st m rp 0) i (A + p) k' ∧ ld (st m rp 0) (childAt (A + p) d) = ptr A k' ∧
      (∀ d', d' ≠ d → TRep A (st m rp 0) i (A + p) (kid l r d') ∧ ld (st m rp 0) (childAt (A + p) d') = ptr A (kid l r d')) ∧
      index (st m rp 0) (A + p) = i ∧ ∀ y, ¬Own A (.node s p q l r) y → st m rp 0 y = m y := by
  obtain ⟨hr, hl, hrr⟩ := h
  have hkr : TRep A m i (A + p) (kid l r d) := by cases d; exacts [hl, hrr]
  have gk : Good A (kid l r d) (b - 1) := by cases d; exacts [g.left, g.right]
  have hkm : ∀ y s', (kid l r d).mem y s' → (Tree.node s p q l r).mem y s' := by
    intro y s' hy
    cases d
    · exact .inr (.inl hy)
    · exact .inr (.inr hy)
  have hka : ∀ w ∈ p :: q, ∀ y s', (kid l r d).mem y s' → w + 64 ≤ y ∨ y + 64 ≤ w := by
    intro w hw y s' hy
    cases d
    · exact g.left_apart hw hy
    · exact g.right_apart hw hy
  obtain ⟨s', p', q', k', rp, par', k1, k2, k3, k4, k5⟩ := leafLoop_spec (m := m) (i := i) h0 (kid l r d) (b - 1) (2 ^ 64) (childAt (A + p) d) (A + p) gk hk
    (Nat.le_of_lt gk.height) hkr
  have hmem := Tree.popLeaf_mem k1
  have hpath := Tree.popLeaf_path gk.path k1
  have hcp := childAt_cases (A + p) d
  have hloc : (k' = .leaf ∧ rp = childAt (A + p) d) ∨ (k' ≠ .leaf ∧ ptr A k' = ptr A (kid l r d) ∧ ∃ P s0 e, k'.mem P s0 ∧ (kid l r d).mem P s0 ∧ (P + 64 ≤ p ∨ p + 64 ≤ P) ∧
      (∀ y ∈ p' :: q', P + 64 ≤ y ∨ y + 64 ≤ P) ∧ rp = childAt (A + P) e) := by
    rcases k3 with k3 | ⟨k3, k6, P, s0, e, k7, k8⟩
    · exact .inl k3
    · have hP := (hmem P s0).2 (.inr k7)
      refine .inr ⟨k3, k6, P, s0, e, k7, hP, (hka p (by simp) P s0 hP).symm, fun y hy => ?_, k8⟩
      have hy' := (hmem y s').2 (.inl ⟨rfl, hy⟩)
      have hs := gk.sep P s0 y s' hP hy'
      have : P ≠ y := by
        rintro rfl
        have := gk.uniq P s0 s' hP hy'
        subst this
        exact hpath.2.2 P k7
      omega
  have h1 : base ≤ rp ∧ (∀ y ∈ p' :: q', rp + 8 ≤ A + y + 16 ∨ A + y + 60 ≤ rp) ∧ ∃ w z, (Tree.node s p q l r).mem w z ∧ A + w + 32 ≤ rp ∧ rp + 8 ≤ A + w + 48 := by
    rcases hloc with ⟨e1, e2⟩ | ⟨e1, e2, P, s0, e, e3, e4, e5, e6, e7⟩
    · refine ⟨by omega, fun y hy => ?_, p, s, g.root, by omega, by omega⟩
      have := hka p (by simp) y s' ((hmem y s').2 (.inl ⟨rfl, hy⟩))
      omega
    · have := childAt_cases (A + P) e
      refine ⟨by omega, fun y hy => ?_, P, s0, hkm P s0 e4, by omega, by omega⟩
      have := e6 y hy
      omega
  obtain ⟨h1, h2, hw⟩ := h1
  have hz : ld (st m rp 0) rp = 0 := ld_st_same (by omega)
  refine ⟨s', p', q', k', rp, par', k1, k2, h1, k4.congr ?_, k5 _ hz (fun y _ hy => st_of_ne (by omega)), ?_, ?_, ?_, ?_⟩
  · rintro y ⟨w, hw, h3, h4⟩
    have := h2 w hw
    exact st_of_ne (by omega)
  · rcases hloc with ⟨e1, e2⟩ | ⟨e1, e2, P, s0, e, e3, e4, e5, e6, e7⟩
    · rw [← e2, hz, e1]; rfl
    · have := childAt_cases (A + P) e
      rw [ld_st_ne (by omega), hr.child d, e2]
  · intro d' hd'
    have hne := childAt_ne (p := A + p) hd'
    have hcp' := childAt_cases (A + p) d'
    constructor
    · have hkr' : TRep A m i (A + p) (kid l r d') := by cases d'; exacts [hl, hrr]
      refine hkr'.congr ?_
      rintro y ⟨w, z, hw, h3, h4⟩
      have hwp : p + 64 ≤ w ∨ w + 64 ≤ p := by
        cases d'
        · exact g.left_apart (by simp) hw
        · exact g.right_apart (by simp) hw
      rcases hloc with ⟨e1, e2⟩ | ⟨e1, e2, P, s0, e, e3, e4, e5, e6, e7⟩
      · exact st_of_ne (by omega)
      · have := childAt_cases (A + P) e
        have : P + 64 ≤ w ∨ w + 64 ≤ P := by
          cases d' <;> cases d
          · exact absurd rfl hd'
          · exact (g.sides hw e4).symm
          · exact g.sides e4 hw
          · exact absurd rfl hd'
        exact st_of_ne (by omega)
    · rw [ld_st_ne, hr.child d']
      rcases hloc with ⟨e1, e2⟩ | ⟨e1, e2, P, s0, e, e3, e4, e5, e6, e7⟩
      · omega
      · have := childAt_cases (A + P) e
        omega
  · rw [← hr.index p (by simp)]
    refine ld32_congr (fun y h3 h4 => ?_)
    rcases hloc with ⟨e1, e2⟩ | ⟨e1, e2, P, s0, e, e3, e4, e5, e6, e7⟩
    · exact st_of_ne (by omega)
    · have := childAt_cases (A + P) e
      exact st_of_ne (by omega)
  · intro y hy
    obtain ⟨w, z, hw, h3, h4⟩ := hw
    refine st_of_ne ?_
    by_contra hcon
    exact hy ⟨w, z, hw, by omega, by omega⟩

/-- where a node of the trie hangs: in the bin, or below `P` -/
def Place (A base i : Nat) (m : Mem) (u : Tree) (sl par : Nat) : Prop :=
  (sl = tbin base i ∧ par = sl) ∨
  (par ≠ 0 ∧ ∃ P d, par = A + P ∧ A + P + 64 < 2 ^ 64 ∧ sl = childAt par d ∧ (∀ y s, u.mem y s → (P + 64 ≤ y ∨ y + 64 ≤ P) ∧ A + y ≠ ld m (tbin base i)) ∧
    (d = true → ld m (childAt par false) ≠ ptr A u))

/-- `unlink_large_chunk` of a chunk of the node `u` -/
theorem unlink_local {base x s p b par sl : Nat} {q : List Nat} {l r : Tree} {c : State} (hb : base + 944 ≤ A) (hi : i < 32)
    (g : Good A (.node s p q l r) b) (h : TRep A c.mem i par (.node s p q l r)) (hx : x ∈ p :: q) (hs : ld c.mem sl = A + p)
    (hk : Place A base i c.mem (.node s p q l r) sl par) :
    ∃ m', unlinkLarge base c (A + x) = some { c with mem := m', treemap := if sl = tbin base i ∧ (Tree.node s p q l r).unlink x = .leaf then c.treemap &&& ~~~idx2bit i else c.treemap } ∧
      TRep A m' i par ((Tree.node s p q l r).unlink x) ∧ ld m' sl = ptr A ((Tree.node s p q l r).unlink x) ∧
      ∀ y, ¬Own A (.node s p q l r) y → (y < sl ∨ sl + 8 ≤ y) → m' y = c.mem y := by
  have htb : tbin base i + 8 ≤ A := by unfold tbin; omega
  have hltx := g.lt x s (g.chunk hx)
  have hlp := g.lt p s g.root
  have hpar : par ≠ 0 ∧ par < 2 ^ 64 ∧ base ≤ par := by
    rcases hk with ⟨h1, h2⟩ | ⟨h1, P, d, h2, h3, -⟩
    · rw [h2, h1]; unfold tbin at htb ⊢; omega
    · exact ⟨h1, by omega, by omega⟩
  have hsl : ∀ y s', (Tree.node s p q l r).mem y s' → sl + 8 ≤ A + y + 16 ∨ A + y + 60 ≤ sl := by
    intro y s' hy
    rcases hk with ⟨h1, h2⟩ | ⟨h1, P, d, h2, h3, h4, h5, h6⟩
    · rw [h1]; omega
    · have := (h5 y s' hy).1
      have := childAt_cases par d
      omega
  have hsl1 : ∀ y, sl ≤ y → y < sl + 8 → ¬Own A (.node s p q l r) y := by
    rintro y h1 h2 ⟨w, z, hw, h3, h4⟩
    have := hsl w z hw
    omega
  -- what does not touch the chunks of the node leaves the place alone
  have hplace : ∀ m1 : Mem, (∀ y, ¬Own A (.node s p q l r) y → m1 y = c.mem y) →
      (A + p = ld m1 (tbin base i) ∧ sl = tbin base i) ∨ (A + p ≠ ld m1 (tbin base i) ∧ base ≤ par ∧ sl = childAt par (decide (ld m1 (childAt par false) ≠ A + p))) := by
    intro m1 hm1
    have h1 : ld m1 (tbin base i) = ld c.mem (tbin base i) := by
      refine ld_congr (fun y h1 h2 => hm1 y ?_)
      rintro ⟨w, z, hw, h3, h4⟩
      omega
    rw [h1]
    rcases hk with ⟨h2, h3⟩ | ⟨h2, P, d, h3, h4, h5, h6, h7⟩
    · left
      exact ⟨by rw [← h2, hs], h2⟩
    · right
      have hf : ld m1 (childAt par false) = ld c.mem (childAt par false) := by
        refine ld_congr (fun y k1 k2 => hm1 y ?_)
        rintro ⟨w, z, hw, k3, k4⟩
        have := (h6 w z hw).1
        have := childAt_cases par false
        omega
      refine ⟨(h6 p s g.root).2, hpar.2.2, ?_⟩
      rw [hf, h5]
      congr 1
      cases d
      · rw [← h5, hs]; simp
      · have := h7 rfl
        simp only [ptr] at this
        simp [this]
  have hndq : (p :: q).Nodup := g.path.1
  obtain ⟨hr, hl, hrr⟩ := h
  have hpn := (List.nodup_cons.1 hndq).1
  have hqn := (List.nodup_cons.1 hndq).2
  by_cases hxp : x = p
  · subst hxp
    by_cases hq : q = []
    · -- alone
      subst hq
      have hbk : bk c.mem (A + x) = A + x := hr.ring.2
      have hunl : (Tree.node s x [] l r).unlink x = Tree.dropNode l r := by simp [Tree.unlink]
      have gd : Good A (Tree.dropNode l r) b := by rw [← hunl]; exact g.unlink
      have hdm := Tree.unlink_mem (x := x) g.path g.uniq
      rw [hunl] at hdm
      have hdsep : ∀ y s', (Tree.dropNode l r).mem y s' → x + 64 ≤ y ∨ y + 64 ≤ x := by
        intro y s' hy
        obtain ⟨h1, h2⟩ := (hdm y s').1 hy
        have := g.sep x s y s' g.root h1
        omega
      have hdown : ∀ y, Own A (Tree.dropNode l r) y → Own A (.node s x [] l r) y := by
        rintro y ⟨w, z, hw, h1⟩
        exact ⟨w, z, ((hdm w z).1 hw).1, h1⟩
      have hdsl : ∀ y s', y = x ∨ (Tree.dropNode l r).mem y s' → sl + 8 ≤ A + y + 16 ∨ A + y + 60 ≤ sl := by
        rintro y s' (rfl | hy)
        · exact hsl y s g.root
        · exact hsl y s' ((hdm y s').1 hy).1
      rw [hunl]
      have hpe : parent c.mem (A + x) = par := hr.parent
      -- a leaf from below
      have main : ∀ d, kid l r d ≠ .leaf → (∀ s' p' q' k', (kid l r d).popLeaf = some ((s', p', q'), k') → ∃ l2 r2, Tree.dropNode l r = .node s' p' q' l2 r2 ∧ kid l2 r2 d = k' ∧ ∀ d', d' ≠ d → kid l2 r2 d' = kid l r d') →
          (if ld c.mem (childAt (A + x) true) ≠ 0 then childAt (A + x) true else childAt (A + x) false) = childAt (A + x) d →
          ∃ m', unlinkLarge base c (A + x) = some { c with mem := m', treemap := if sl = tbin base i ∧ Tree.dropNode l r = .leaf then c.treemap &&& ~~~idx2bit i else c.treemap } ∧
            TRep A m' i par (Tree.dropNode l r) ∧ ld m' sl = ptr A (Tree.dropNode l r) ∧ ∀ y, ¬Own A (.node s x [] l r) y → (y < sl ∨ sl + 8 ≤ y) → m' y = c.mem y := by
        intro d hkd hshape hrp
        obtain ⟨s', p', q', k', rp, par', k1, k2, k3, k4, k5, k6, k7, k8, k9⟩ := pop_spec (base := base) (by omega) (by omega) g ⟨hr, hl, hrr⟩ d hkd
        obtain ⟨l2, r2, e1, e2, e3⟩ := hshape s' p' q' k' k1
        have hsub : substitute base c.mem (A + x) = some (st c.mem rp 0, A + p') := by
          unfold substitute
          rw [if_neg (by simp [hbk])]
          simp only
          rw [hrp, hr.child d, if_pos (fun e => hkd ((ptr_zero (by omega)).1 e)), k2]
          simp only [Option.bind_some]
          rw [if_pos k3]
        have hkids : ∀ d', TRep A (st c.mem rp 0) i (A + x) (kid l2 r2 d') ∧ ld (st c.mem rp 0) (childAt (A + x) d') = ptr A (kid l2 r2 d') := by
          intro d'
          by_cases e : d' = d
          · subst e; rw [e2]; exact ⟨k5, k6⟩
          · rw [e3 d' e]; exact k7 d' e
        rw [e1] at gd hdsep hdsl hdown ⊢
        obtain ⟨m', r1, r2', r3, r4⟩ := relink_spec (base := base) (c := { c with mem := st c.mem rp 0 }) hb rfl gd k4 (hkids false).1 (hkids true).1 hdsep (hkids false).2 (hkids true).2
          k8 hpar.2.1 hdsl (hplace _ k9)
        refine ⟨m', ?_, r2', r3, fun y h1 h2 => ?_⟩
        · unfold unlinkLarge
          simp only
          rw [hsub, hpe]
          simp only [Option.bind_some]
          rw [if_pos hpar.1, r1]
          simp
        · rw [r4 y (fun h => h1 (hdown y h)) h2]
          exact k9 y h1
      by_cases e1 : r = .leaf
      · by_cases e2 : l = .leaf
        · -- nothing below
          subst e1 e2
          have hsub : substitute base c.mem (A + x) = some (c.mem, 0) := by
            unfold substitute
            rw [if_neg (by simp [hbk])]
            have h1 : ld c.mem (childAt (A + x) true) = 0 := hr.child true
            have h2 : ld c.mem (childAt (A + x) false) = 0 := hr.child false
            simp [h1, h2]
          have hpl := hplace c.mem (fun _ _ => rfl)
          have hix := hr.index x (by simp)
          refine ⟨st c.mem sl 0, ?_, trivial, ?_, fun y h1 h2 => st_of_ne (by omega)⟩
          · unfold unlinkLarge
            simp only
            rw [hsub, hpe]
            simp only [Option.bind_some]
            rw [if_pos hpar.1]
            unfold relink
            simp only
            rw [hix]
            rcases hpl with ⟨h1, h2⟩ | ⟨h1, h2, h3⟩
            · rw [if_pos h1]
              simp [h2, Tree.dropNode, Tree.popLeaf]
            · have hne : sl ≠ tbin base i := by
                have := childAt_cases par (decide (ld c.mem (childAt par false) ≠ A + x))
                rw [h3]
                rcases hk with ⟨h4, h5⟩ | ⟨h4, P, d, h5, -⟩
                · exfalso; rw [← h4, hs] at h1; exact h1 rfl
                · omega
              rw [if_neg h1, if_pos h2, ← h3]
              simp [hne]
          · rw [ld_st_same (by omega)]
            simp [Tree.dropNode, Tree.popLeaf, ptr]
        · subst e1
          refine main false e2 (fun s' p' q' k' hpop => ?_) ?_
          · refine ⟨k', .leaf, ?_, rfl, fun d' hd' => ?_⟩
            · simp only [kid] at hpop
              rw [if_neg (by simp)] at hpop
              simp [Tree.dropNode, Tree.popLeaf, hpop]
            · cases d'
              · exact absurd rfl hd'
              · rfl
          · rw [hr.child true, if_neg (by simp [kid, ptr])]
      · refine main true e1 (fun s' p' q' k' hpop => ?_) ?_
        · refine ⟨l, k', ?_, rfl, fun d' hd' => ?_⟩
          · simp only [kid] at hpop
            rw [if_pos trivial] at hpop
            simp [Tree.dropNode, hpop]
          · cases d'
            · rfl
            · exact absurd rfl hd'
        · rw [hr.child true, if_pos (show ptr A (kid l r true) ≠ 0 from fun e => e1 ((ptr_zero (t := r) (show 0 < A by omega)).1 e))]
    · -- the last of the ring takes over
      obtain ⟨ys, z, rfl⟩ : ∃ ys z, q = ys ++ [z] := by
        rcases List.eq_nil_or_concat q with e | ⟨ys, z, e⟩
        · exact absurd e hq
        · exact ⟨ys, z, by rw [e, List.concat_eq_append]⟩
      have hmap : (ys ++ [z]).map (A + ·) = ys.map (A + ·) ++ [A + z] := by simp
      have hring := hr.ring
      rw [hmap] at hring
      have hunl : (Tree.node s x (ys ++ [z]) l r).unlink x = .node s z ys l r := by simp [Tree.unlink]
      have gd : Good A (.node s z ys l r) b := by rw [← hunl]; exact g.unlink
      have hdm := Tree.unlink_mem (x := x) g.path g.uniq
      rw [hunl] at hdm
      have hdsep : ∀ y s', (Tree.node s z ys l r).mem y s' → x + 64 ≤ y ∨ y + 64 ≤ x := by
        intro y s' hy
        obtain ⟨h1, h2⟩ := (hdm y s').1 hy
        have := g.sep x s y s' g.root h1
        omega
      have hdsl : ∀ y s', y = x ∨ (Tree.node s z ys l r).mem y s' → sl + 8 ≤ A + y + 16 ∨ A + y + 60 ≤ sl := by
        rintro y s' (rfl | hy)
        · exact hsl y s g.root
        · exact hsl y s' ((hdm y s').1 hy).1
      have hbk : bk c.mem (A + x) = A + z := by rw [seg_bk hring]; simp
      obtain ⟨wf, hwf, hfd⟩ : ∃ wf, (wf ∈ ys ++ [z]) ∧ (ys.map (A + ·)).headD (A + z) = A + wf := by
        rcases headD_mem (ys.map (A + ·)) (A + z) with e | e
        · exact ⟨z, by simp, e⟩
        · obtain ⟨w, hw, e⟩ := List.mem_map.1 e; exact ⟨w, by simp [hw], e.symm⟩
      have hfd1 : fd c.mem (A + x) = A + wf := by
        rw [seg_fd hring, ← hfd]
        cases ys <;> simp
      have hzx : z ≠ x := by rintro rfl; exact hpn (by simp)
      obtain ⟨s1, s2, s3⟩ := splice (m := c.mem) g (wf := wf) (wr := z) (List.mem_cons_of_mem _ hwf) (by simp) rfl
      have hbf : bk c.mem (A + wf) = A + x := by
        have := seg_head_bk hring
        rw [show (ys.map (A + ·) ++ [A + z]).headD (A + x) = A + wf by rw [← hfd]; cases ys <;> simp] at this
        exact this
      have hfr : fd c.mem (A + z) = A + x := by
        have := seg_last_fd hring
        rw [show (ys.map (A + ·) ++ [A + z]).getLastD (A + x) = A + z by simp] at this
        exact this
      have hsub : substitute base c.mem (A + x) = some (setFd (setBk c.mem (A + wf) (A + z)) (A + z) (A + wf), A + z) := by
        unfold substitute
        rw [if_pos (by rw [hbk]; omega)]
        simp only
        rw [hbk, hfd1, if_pos ⟨by omega, hbf, hfr⟩]
      have hframe : ∀ y, ¬Own A (.node s x (ys ++ [z]) l r) y → setFd (setBk c.mem (A + wf) (A + z)) (A + z) (A + wf) y = c.mem y := by
        intro y hy
        refine s3 y (fun w hw => ?_)
        by_contra hcon
        exact hy ⟨w, s, g.chunk hw, by omega, by omega⟩
      have hword : ∀ w ∈ x :: (ys ++ [z]), ∀ y, A + w + 32 ≤ y → y < A + w + 60 → setFd (setBk c.mem (A + wf) (A + z)) (A + z) (A + wf) y = c.mem y := by
        intro w hw y h1 h2
        refine s3 y (fun w' hw' => ?_)
        have := g.sep w s w' s (g.chunk hw) (g.chunk hw')
        omega
      have hchild : ∀ w ∈ x :: (ys ++ [z]), ∀ d, ld (setFd (setBk c.mem (A + wf) (A + z)) (A + z) (A + wf)) (childAt (A + w) d) = ld c.mem (childAt (A + w) d) := by
        intro w hw d
        have := childAt_cases (A + w) d
        exact ld_congr (fun y h1 h2 => hword w hw y (by omega) (by omega))
      have hparw : ∀ w ∈ x :: (ys ++ [z]), parent (setFd (setBk c.mem (A + wf) (A + z)) (A + z) (A + wf)) (A + w) = parent c.mem (A + w) :=
        fun w hw => ld_congr (fun y h1 h2 => hword w hw y (by omega) (by omega))
      have hidx : ∀ w ∈ x :: (ys ++ [z]), index (setFd (setBk c.mem (A + wf) (A + z)) (A + z) (A + wf)) (A + w) = i := by
        intro w hw
        rw [← hr.index w hw]
        exact ld32_congr (fun y h1 h2 => hword w hw y (by omega) (by omega))
      have hr1 : NRep A (setFd (setBk c.mem (A + wf) (A + z)) (A + z) (A + wf)) i 0 z ys (fun _ => 0) := by
        refine ⟨?_, fun d => ?_, fun w hw => hidx w (by simp at hw ⊢; tauto), ?_, fun w hw => ⟨?_, fun d => ?_⟩⟩
        · rw [hparw z (by simp)]; exact (hr.chain z (by simp)).1
        · rw [hchild z (by simp)]; exact (hr.chain z (by simp)).2 d
        · have hnd : (ys.map (A + ·) ++ [A + z]).Nodup := by rw [← hmap]; exact nodup_add A hqn
          have hzy : z ∉ ys := by
            intro hzy
            have := List.nodup_append.1 hqn
            exact this.2.2 z hzy z (by simp) rfl
          refine ring_drop hnd hring ?_ ?_ ?_ ?_
          · rw [hfd, s1 z (by simp), if_pos rfl]
          · rw [hfd, s2 wf (List.mem_cons_of_mem _ hwf), if_pos rfl]
          · intro y hy
            obtain ⟨w, hw, rfl⟩ := List.mem_map.1 hy
            rw [s1 w (by simp [hw]), if_neg (by rintro rfl; exact hzy hw)]
          · intro y hy hne
            rw [hfd] at hne
            obtain ⟨w, hw, rfl⟩ : ∃ w ∈ ys ++ [z], y = A + w := by
              rw [← hmap] at hy
              obtain ⟨w, hw, e⟩ := List.mem_map.1 hy
              exact ⟨w, hw, e.symm⟩
            rw [s2 w (List.mem_cons_of_mem _ hw), if_neg (by rintro rfl; exact hne rfl)]
        · rw [hparw w (by simp [hw])]; exact (hr.chain w (by simp [hw])).1
        · rw [hchild w (by simp [hw])]; exact (hr.chain w (by simp [hw])).2 d
      have hl1 : TRep A (setFd (setBk c.mem (A + wf) (A + z)) (A + z) (A + wf)) i (A + x) l := by
        refine hl.congr ?_
        rintro y ⟨w, a, hw, h1, h2⟩
        exact s3 y (fun w' hw' => by have := g.left_apart hw' hw; omega)
      have hrr1 : TRep A (setFd (setBk c.mem (A + wf) (A + z)) (A + z) (A + wf)) i (A + x) r := by
        refine hrr.congr ?_
        rintro y ⟨w, a, hw, h1, h2⟩
        exact s3 y (fun w' hw' => by have := g.right_apart hw' hw; omega)
      obtain ⟨m', r1, r2, r3, r4⟩ := relink_spec (base := base) (c := { c with mem := setFd (setBk c.mem (A + wf) (A + z)) (A + z) (A + wf) }) hb rfl gd hr1 hl1 hrr1 hdsep
        (by rw [hchild x (by simp), hr.child]; rfl) (by rw [hchild x (by simp), hr.child]; rfl) (hidx x (by simp)) hpar.2.1 hdsl (hplace _ hframe)
      refine ⟨m', ?_, by rw [hunl]; exact r2, by rw [hunl]; exact r3, fun y h1 h2 => ?_⟩
      · unfold unlinkLarge
        simp only
        rw [hsub, hr.parent, hunl]
        simp only [Option.bind_some]
        rw [if_pos hpar.1, r1]
        simp
      · rw [r4 y (fun h => ?_) h2]
        · exact hframe y h1
        · obtain ⟨w, a, hw, h3⟩ := h
          exact h1 ⟨w, a, ((hdm w a).1 hw).1, h3⟩
  · -- a chunk of the ring that is not in the trie
    have hxq : x ∈ q := by simp at hx; tauto
    obtain ⟨as, bs, rfl⟩ := List.append_of_mem hxq
    have hmap : (as ++ x :: bs).map (A + ·) = as.map (A + ·) ++ (A + x) :: bs.map (A + ·) := by simp
    have hring := hr.ring
    rw [hmap] at hring
    obtain ⟨ra, rb⟩ := seg_append.1 hring
    have hxas : x ∉ as := by
      intro h1
      exact (List.nodup_append.1 hqn).2.2 x h1 x (by simp) rfl
    have hxbs : x ∉ bs := (List.nodup_cons.1 (List.nodup_append.1 hqn).2.1).1
    have herase : (as ++ x :: bs).erase x = as ++ bs := by
      rw [List.erase_append_right _ hxas, List.erase_cons_head]
    have hunl : (Tree.node s p (as ++ x :: bs) l r).unlink x = .node s p (as ++ bs) l r := by
      simp only [Tree.unlink]
      rw [if_neg hxp, if_pos hxq, herase]
    obtain ⟨wf, hwf, hfd, hfx⟩ : ∃ wf, wf ∈ p :: (as ++ bs) ∧ (bs.map (A + ·)).headD (A + p) = A + wf ∧ wf ≠ x := by
      rcases headD_mem (bs.map (A + ·)) (A + p) with e | e
      · exact ⟨p, by simp, e, fun e => hxp e.symm⟩
      · obtain ⟨w, hw, e⟩ := List.mem_map.1 e
        exact ⟨w, by simp [hw], e.symm, by rintro rfl; exact hxbs hw⟩
    obtain ⟨wr, hwr, hbk, hrx⟩ : ∃ wr, wr ∈ p :: (as ++ bs) ∧ (as.map (A + ·)).getLastD (A + p) = A + wr ∧ wr ≠ x := by
      rcases getLastD_mem (as.map (A + ·)) (A + p) with e | e
      · exact ⟨p, by simp, e, fun e => hxp e.symm⟩
      · obtain ⟨w, hw, e⟩ := List.mem_map.1 e
        exact ⟨w, by simp [hw], e.symm, by rintro rfl; exact hxas hw⟩
    have hin : ∀ w, w ∈ p :: (as ++ bs) → w ∈ p :: (as ++ x :: bs) := by
      intro w hw
      simp at hw ⊢
      tauto
    obtain ⟨s1, s2, s3⟩ := splice (m := c.mem) g (hin wf hwf) (hin wr hwr) rfl
    have e1 : fd c.mem (A + x) = A + wf := by rw [seg_fd rb, hfd]
    have e2 : bk c.mem (A + x) = A + wr := by rw [seg_bk ra, hbk]
    have e3 : bk c.mem (A + wf) = A + x := by rw [← hfd]; exact seg_head_bk rb
    have e4 : fd c.mem (A + wr) = A + x := by rw [← hbk]; exact seg_last_fd ra
    have hsub : substitute base c.mem (A + x) = some (setFd (setBk c.mem (A + wf) (A + wr)) (A + wr) (A + wf), A + wr) := by
      unfold substitute
      rw [if_pos (by rw [e2]; omega)]
      simp only
      rw [e1, e2, if_pos ⟨by omega, e3, e4⟩]
    have hword : ∀ w ∈ p :: (as ++ x :: bs), ∀ y, A + w + 32 ≤ y → y < A + w + 60 → setFd (setBk c.mem (A + wf) (A + wr)) (A + wr) (A + wf) y = c.mem y := by
      intro w hw y h1 h2
      refine s3 y (fun w' hw' => ?_)
      have := g.sep w s w' s (g.chunk hw) (g.chunk hw')
      omega
    have hframe : ∀ y, ¬Own A (.node s p (as ++ x :: bs) l r) y → setFd (setBk c.mem (A + wf) (A + wr)) (A + wr) (A + wf) y = c.mem y := by
      intro y hy
      refine s3 y (fun w hw => ?_)
      by_contra hcon
      exact hy ⟨w, s, g.chunk hw, by omega, by omega⟩
    refine ⟨setFd (setBk c.mem (A + wf) (A + wr)) (A + wr) (A + wf), ?_, ?_, ?_, fun y h1 _ => hframe y h1⟩
    · unfold unlinkLarge
      simp only
      rw [hsub, (hr.chain x hxq).1, hunl]
      simp
    · rw [hunl]
      refine ⟨⟨?_, fun d => ?_, fun w hw => ?_, ?_, fun w hw => ⟨?_, fun d => ?_⟩⟩, hl.congr ?_, hrr.congr ?_⟩
      · rw [← hr.parent]; exact ld_congr (fun y h1 h2 => hword p (by simp) y (by omega) (by omega))
      · rw [← hr.child d]
        have := childAt_cases (A + p) d
        exact ld_congr (fun y h1 h2 => hword p (by simp) y (by omega) (by omega))
      · rw [← hr.index w (hin w hw)]
        exact ld32_congr (fun y h1 h2 => hword w (hin w hw) y (by omega) (by omega))
      · have hnd : ((A + p) :: (as.map (A + ·) ++ (A + x) :: bs.map (A + ·))).Nodup := by
          have := nodup_add A hndq
          simpa using this
        have := ring_remove (m' := setFd (setBk c.mem (A + wf) (A + wr)) (A + wr) (A + wf)) hnd hring ?_ ?_ ?_ ?_
        · simpa using this
        · rw [hbk, hfd, s1 wr (hin wr hwr), if_pos rfl]
        · rw [hbk, hfd, s2 wf (hin wf hwf), if_pos rfl]
        · intro y hy hne
          rw [hbk] at hne
          obtain ⟨w, hw, rfl⟩ : ∃ w ∈ p :: (as ++ bs), y = A + w := ring_addr (by simpa using hy)
          rw [s1 w (hin w hw), if_neg (by rintro rfl; exact hne rfl)]
        · intro y hy hne
          rw [hfd] at hne
          obtain ⟨w, hw, rfl⟩ : ∃ w ∈ p :: (as ++ bs), y = A + w := ring_addr (by simpa using hy)
          rw [s2 w (hin w hw), if_neg (by rintro rfl; exact hne rfl)]
      · have hw' : w ∈ as ++ x :: bs := by simp at hw ⊢; tauto
        rw [← (hr.chain w hw').1]
        exact ld_congr (fun y h1 h2 => hword w (by simp at hw' ⊢; tauto) y (by omega) (by omega))
      · have hw' : w ∈ as ++ x :: bs := by simp at hw ⊢; tauto
        rw [← (hr.chain w hw').2 d]
        have := childAt_cases (A + w) d
        exact ld_congr (fun y h1 h2 => hword w (by simp at hw' ⊢; tauto) y (by omega) (by omega))
      · rintro y ⟨w, a, hw, h1, h2⟩
        exact s3 y (fun w' hw' => by have := g.left_apart hw' hw; omega)
      · rintro y ⟨w, a, hw, h1, h2⟩
        exact s3 y (fun w' hw' => by have := g.right_apart hw' hw; omega)
    · rw [hunl, ptr, ← hs]
      exact ld_congr (fun y h1 h2 => hframe y (hsl1 y h1 (by omega)))

end

end Verif.Lnk
