import Verif.Lnk.Insert
/-!
# `unlink_large_chunk` on a trie in memory
-/
namespace Verif.Lnk
open Dl (Tree dir keyBits idx2bit)
open Tag (Mem ld st ld_st_same ld_st_ne ld_congr st_of_ne chunksize)

theorem seg_last_fd {m : Mem} {z : Nat} : ∀ {ys : List Nat} {x : Nat}, Seg m x ys z → fd m (ys.getLastD x) = z := by
  intro ys
  induction ys with
  | nil => intro x h; exact h.1
  | cons y ys ih => intro x h; rw [List.getLastD_cons]; exact ih h.2.2

theorem seg_head_bk {m : Mem} {x z : Nat} {ys : List Nat} (h : Seg m x ys z) : bk m (ys.headD z) = x := by
  cases ys with
  | nil => exact h.2
  | cons y ys => exact h.2.1

section
variable {A : Nat} {m : Mem} {i : Nat}

/-- `l` and `r` around the parts of a trie -/
theorem Good.unlink {t : Tree} {b x : Nat} (g : Good A t b) : Good A (t.unlink x) b := by
  have hm := Tree.unlink_mem (x := x) g.path g.uniq
  exact ⟨Tree.unlink_path g.path g.uniq, fun y a c ha hc => g.uniq y a c ((hm y a).1 ha).1 ((hm y c).1 hc).1,
    fun y a z c ha hc => g.sep y a z c ((hm y a).1 ha).1 ((hm z c).1 hc).1, fun y a ha => g.lt y a ((hm y a).1 ha).1⟩

theorem unlink_same {x : Nat} : ∀ {t : Tree}, (∀ s, ¬t.mem x s) → t.unlink x = t := by
  intro t
  induction t with
  | leaf => intro _; rfl
  | node s p q l r ihl ihr =>
    intro h
    have h1 : x ∉ p :: q := fun hx => h s (.inl ⟨rfl, hx⟩)
    simp only [List.mem_cons, not_or] at h1
    simp only [Tree.unlink]
    rw [if_neg h1.1, if_neg h1.2, ihl (fun s' hs => h s' (.inr (.inl hs))), ihr (fun s' hs => h s' (.inr (.inr hs)))]

/-! ## The leaf that is taken -/

theorem leafLoop_spec (h0 : 0 < A) : ∀ (u : Tree) (b n sl par : Nat), Good A u b → u ≠ .leaf → height u ≤ n → TRep A m i par u →
    ∃ s p q u' rp par', u.popLeaf = some ((s, p, q), u') ∧ leafLoop m n (ptr A u) sl = some (A + p, rp) ∧
      ((u' = .leaf ∧ rp = sl) ∨ (u' ≠ .leaf ∧ ptr A u' = ptr A u ∧ ∃ P s0 d, u'.mem P s0 ∧ rp = childAt (A + P) d)) ∧
      NRep A m i par' p q (fun _ => 0) ∧
      ∀ m', ld m' rp = 0 → (∀ y, Own A u' y → (y < rp ∨ rp + 8 ≤ y) → m' y = m y) → TRep A m' i par u' := by
  intro u
  induction u with
  | leaf => intro b n sl par _ h; exact absurd rfl h
  | node s p q l r ihl ihr =>
    intro b n sl par g _ hn h
    cases n with
    | zero => simp [height] at hn
    | succ n =>
      simp only [height] at hn
      obtain ⟨hr, hl, hrr⟩ := h
      rw [show ptr A (Tree.node s p q l r) = A + p from rfl]
      simp only [leafLoop]
      rw [hr.child true, hr.child false]
      simp only [show kid l r true = r from rfl, show kid l r false = l from rfl]
      by_cases e1 : r = .leaf
      · subst e1
        rw [if_neg (by simp [ptr])]
        by_cases e2 : l = .leaf
        · subst e2
          rw [if_neg (by simp [ptr])]
          refine ⟨s, p, q, .leaf, sl, par, rfl, rfl, .inl ⟨rfl, rfl⟩, ?_, fun _ _ _ => trivial⟩
          convert hr using 1
          funext d; cases d <;> rfl
        · rw [if_pos (fun e => e2 ((ptr_zero h0).1 e))]
          obtain ⟨s', p', q', l', rp, par', k1, k2, k3, k4, k5⟩ := ihl (b - 1) n (childAt (A + p) false) (A + p) g.left e2 (by omega) hl
          have hmem := Tree.popLeaf_mem k1
          refine ⟨s', p', q', .node s p q l' .leaf, rp, par', ?_, k2, .inr ⟨by simp, rfl, ?_⟩, k4, ?_⟩
          · simp only [Tree.popLeaf, k1]
          · rcases k3 with ⟨k3, k6⟩ | ⟨k3, k6, P, s0, d, k7, k8⟩
            · exact ⟨p, s, false, .inl ⟨rfl, by simp⟩, k6⟩
            · exact ⟨P, s0, d, .inr (.inl k7), k8⟩
          · intro m' hz hm
            have hloc : (∃ d, rp = childAt (A + p) d) ∨ ∃ P s0 d, l.mem P s0 ∧ rp = childAt (A + P) d := by
              rcases k3 with ⟨k3, k6⟩ | ⟨k3, k6, P, s0, d, k7, k8⟩
              · exact .inl ⟨false, k6⟩
              · exact .inr ⟨P, s0, d, (hmem P s0).2 (.inr k7), k8⟩
            refine ⟨?_, k5 m' hz (fun y hy => ?_), trivial⟩
            · have h1 := hr.slot (m' := m') rp ?_ (fun y hy => g.ring_apart hy) ?_
              · rw [hz] at h1
                convert h1 using 1
                funext d
                rcases k3 with ⟨k3, k6⟩ | ⟨k3, k6, P, s0, d', k7, k8⟩
                · subst k3
                  rw [k6]
                  cases d <;> simp [childAt, kid, ptr]
                · have h2 := (hmem P s0).2 (.inr k7)
                  have h3 := g.left_apart (x := p) (by simp) h2
                  have h4 := childAt_cases (A + P) d'
                  have h5 := childAt_cases (A + p) d
                  rw [if_neg (by omega)]
                  cases d
                  · exact k6
                  · rfl
              · rcases hloc with hloc | ⟨P, s0, d, h1, h2⟩
                · exact .inl hloc
                · right
                  intro y hy
                  have := g.left_apart hy h1
                  have := childAt_cases (A + P) d
                  omega
              · rintro y ⟨w, hw, h1⟩ h2
                exact hm y ⟨w, s, .inl ⟨rfl, hw⟩, h1⟩ h2
            · obtain ⟨w, z, hw, h1⟩ := hy
              exact hm y ⟨w, z, .inr (.inl hw), h1⟩
      · rw [if_pos (fun e => e1 ((ptr_zero h0).1 e))]
        obtain ⟨s', p', q', r', rp, par', k1, k2, k3, k4, k5⟩ := ihr (b - 1) n (childAt (A + p) true) (A + p) g.right e1 (by omega) hrr
        have hmem := Tree.popLeaf_mem k1
        refine ⟨s', p', q', .node s p q l r', rp, par', ?_, k2, .inr ⟨by simp, rfl, ?_⟩, k4, ?_⟩
        · simp only [Tree.popLeaf, k1]
        · rcases k3 with ⟨k3, k6⟩ | ⟨k3, k6, P, s0, d, k7, k8⟩
          · exact ⟨p, s, true, .inl ⟨rfl, by simp⟩, k6⟩
          · exact ⟨P, s0, d, .inr (.inr k7), k8⟩
        · intro m' hz hm
          have hloc : (∃ d, rp = childAt (A + p) d) ∨ ∃ P s0 d, r.mem P s0 ∧ rp = childAt (A + P) d := by
            rcases k3 with ⟨k3, k6⟩ | ⟨k3, k6, P, s0, d, k7, k8⟩
            · exact .inl ⟨true, k6⟩
            · exact .inr ⟨P, s0, d, (hmem P s0).2 (.inr k7), k8⟩
          refine ⟨?_, hl.congr (fun y hy => ?_), k5 m' hz (fun y hy => ?_)⟩
          · have h1 := hr.slot (m' := m') rp ?_ (fun y hy => g.ring_apart hy) ?_
            · rw [hz] at h1
              convert h1 using 1
              funext d
              rcases k3 with ⟨k3, k6⟩ | ⟨k3, k6, P, s0, d', k7, k8⟩
              · subst k3
                rw [k6]
                cases d <;> simp [childAt, kid, ptr]
              · have h2 := (hmem P s0).2 (.inr k7)
                have h3 := g.right_apart (x := p) (by simp) h2
                have h4 := childAt_cases (A + P) d'
                have h5 := childAt_cases (A + p) d
                rw [if_neg (by omega)]
                cases d
                · rfl
                · exact k6
            · rcases hloc with hloc | ⟨P, s0, d, h1, h2⟩
              · exact .inl hloc
              · right
                intro y hy
                have := g.right_apart hy h1
                have := childAt_cases (A + P) d
                omega
            · rintro y ⟨w, hw, h1⟩ h2
              exact hm y ⟨w, s, .inl ⟨rfl, hw⟩, h1⟩ h2
          · obtain ⟨w, z, hw, h1⟩ := hy
            refine hm y ⟨w, z, .inr (.inl hw), h1⟩ ?_
            rcases hloc with ⟨d, hloc⟩ | ⟨P, s0, d, h3, h4⟩
            · have := g.left_apart (x := p) (by simp) hw
              have := childAt_cases (A + p) d
              omega
            · have := g.sides hw h3
              have := childAt_cases (A + P) d
              omega
          · obtain ⟨w, z, hw, h1⟩ := hy
            exact hm y ⟨w, z, .inr (.inr hw), h1⟩

/-! ## Another chunk takes the place of a node -/

theorem adopt_spec {base x z d0 : Nat} {d : Bool} {par : Nat} {q : List Nat} {ch : Bool → Nat} {k : Tree} {b px : Nat} (hb : base ≤ A) (h0 : 0 < A)
    (hz : A + z + 64 < 2 ^ 64) (hr : NRep A m i par z q ch) (hq : ∀ y ∈ q, y + 64 ≤ z ∨ z + 64 ≤ y) (hk : TRep A m i px k) (g : Good A k b)
    (hd0 : ld m (childAt x d) = d0) (hd : d0 = ptr A k) (hch : ch d = 0)
    (hkz : ∀ y s, k.mem y s → ∀ w ∈ z :: q, w + 64 ≤ y ∨ y + 64 ≤ w) :
    ∃ m', adopt base m x (A + z) d = some m' ∧ NRep A m' i par z q (fun e => if e = d then ptr A k else ch e) ∧ TRep A m' i (A + z) k ∧
      ∀ y, (y < childAt (A + z) d ∨ childAt (A + z) d + 8 ≤ y) → (k ≠ .leaf → y < ptr A k + 48 ∨ ptr A k + 56 ≤ y) → m' y = m y := by
  unfold adopt
  simp only
  rw [hd0, hd]
  by_cases e : k = .leaf
  · subst e
    rw [if_neg (by simp [ptr])]
    refine ⟨m, rfl, ?_, trivial, fun _ _ _ => rfl⟩
    convert hr using 1
    funext e
    by_cases he : e = d
    · rw [if_pos he, he, hch]; rfl
    · rw [if_neg he]
  · obtain ⟨pk, sk, ek, mk⟩ := ptr_mem (A := A) e
    have hlt := g.lt pk sk mk
    have hkz' := hkz pk sk mk
    have hca := childAt_cases (A + z) d
    rw [if_pos (fun h => e ((ptr_zero h0).1 h)), ek, if_pos (by omega)]
    have hzz := hkz' z (by simp)
    have frame : ∀ y, (y < childAt (A + z) d ∨ childAt (A + z) d + 8 ≤ y) → (y < A + pk + 48 ∨ A + pk + 56 ≤ y) →
        setParent (st m (childAt (A + z) d) (A + pk)) (A + pk) (A + z) y = m y := by
      intro y h1 h2
      simp only [setParent]
      rw [st_of_ne (by omega), st_of_ne (by omega)]
    refine ⟨_, rfl, ?_, ?_, fun y h1 h2 => frame y h1 (h2 e)⟩
    · have h1 := hr.slot (m' := setParent (st m (childAt (A + z) d) (A + pk)) (A + pk) (A + z)) (childAt (A + z) d) (.inl ⟨d, rfl⟩) hq ?_
      · have h2 : ld (setParent (st m (childAt (A + z) d) (A + pk)) (A + pk) (A + z)) (childAt (A + z) d) = A + pk := by
          simp only [setParent]
          rw [ld_st_ne (by omega), ld_st_same (by omega)]
        rw [h2] at h1
        convert h1 using 1
        funext e'
        by_cases he : e' = d
        · subst he; rw [if_pos rfl, if_pos rfl]
        · rw [if_neg he]
          have := childAt_ne (p := A + z) (Ne.symm he)
          rw [if_neg (by omega)]
      · rintro y ⟨w, hw, h1, h2⟩ h3
        have := hkz' w hw
        exact frame y h3 (by omega)
    · refine hk.reparent g (fun _ => ?_) (fun y hy h1 => ?_)
      · rw [ek]
        simp only [setParent, parent]
        rw [ld_st_same (by omega)]
      · rw [ek] at h1
        obtain ⟨w, s, hw, h2, h3⟩ := hy
        have := hkz w s hw z (by simp)
        exact frame y (by omega) h1

/-- second half of `unlink_large_chunk`: `z` takes the place of `x` in the slot `sl` -/
theorem relink_spec {base x z s b par sl px pz : Nat} {q : List Nat} {l r : Tree} {c : State} (hb : base + 944 ≤ A) (hm : m = c.mem)
    (g : Good A (.node s z q l r) b) (hr : NRep A m i pz z q (fun _ => 0)) (hl : TRep A m i px l) (hrr : TRep A m i px r)
    (hx : ∀ y s', (Tree.node s z q l r).mem y s' → x + 64 ≤ y ∨ y + 64 ≤ x)
    (hcl : ld m (childAt (A + x) false) = ptr A l) (hcr : ld m (childAt (A + x) true) = ptr A r) (hi : index m (A + x) = i) (hpar : par < 2 ^ 64)
    (hsl : ∀ y s', y = x ∨ (Tree.node s z q l r).mem y s' → sl + 8 ≤ A + y + 16 ∨ A + y + 60 ≤ sl)
    (hk : (A + x = ld m (tbin base i) ∧ sl = tbin base i) ∨ (A + x ≠ ld m (tbin base i) ∧ base ≤ par ∧ sl = childAt par (decide (ld m (childAt par false) ≠ A + x)))) :
    ∃ m', relink base c (A + x) par (A + z) = some { c with mem := m' } ∧ TRep A m' i par (.node s z q l r) ∧ ld m' sl = A + z ∧
      ∀ y, ¬Own A (.node s z q l r) y → (y < sl ∨ sl + 8 ≤ y) → m' y = m y := by
  have hltz := g.lt z s g.root
  have hxz := hx z s g.root
  have hslz := hsl z s (.inr g.root)
  have hslx := hsl x 0 (.inl rfl)
  have hcz : ∀ d, childAt (A + x) d + 8 ≤ A + x + 60 ∧ A + x + 16 ≤ childAt (A + x) d := fun d => by have := childAt_cases (A + x) d; omega
  -- after the two words
  let m3 := setParent (st m sl (A + z)) (A + z) par
  have frame3 : ∀ y, (y < sl ∨ sl + 8 ≤ y) → (y < A + z + 48 ∨ A + z + 56 ≤ y) → m3 y = m y := by
    intro y h1 h2
    simp only [m3, setParent]
    rw [st_of_ne (by omega), st_of_ne (by omega)]
  have hr3 : NRep A m3 i par z q (fun _ => 0) := by
    -- a node by itself
    have hsolo : Good A (.node s z q .leaf .leaf) b := by
      refine ⟨⟨g.path.1, fun _ _ h => h.elim, fun _ _ h => h.elim, trivial, trivial⟩, ?_, ?_, ?_⟩
      · rintro y a c (h | h | h) (h' | h' | h')
        · rw [h.1, h'.1]
        all_goals first | exact h.elim | exact h'.elim
      · rintro y a y' a' (h | h | h) (h' | h' | h')
        · exact g.sep y s y' s (g.chunk h.2) (g.chunk h'.2)
        all_goals first | exact h.elim | exact h'.elim
      · rintro y a (h | h | h)
        · exact g.lt y s (g.chunk h.2)
        all_goals exact h.elim
    have hsr : TRep A m i pz (.node s z q .leaf .leaf) := by
      refine ⟨?_, trivial, trivial⟩
      convert hr using 1
      funext d; cases d <;> rfl
    have h1 := hsr.reparent (m' := m3) (par' := par) hsolo ?_ ?_
    · have := h1.1
      convert this using 1
      funext d; cases d <;> rfl
    · intro _
      simp only [m3, ptr, setParent, parent]
      rw [ld_st_same hpar]
    · rintro y ⟨w, a, hw | hw | hw, h1, h2⟩ h3
      · have := hsl w s (.inr (g.chunk hw.2))
        exact frame3 y (by omega) h3
      · exact hw.elim
      · exact hw.elim
  have hl3 : TRep A m3 i px l := by
    refine hl.congr ?_
    rintro y ⟨w, a, hw, h1, h2⟩
    have := hsl w a (.inr (.inr (.inl hw)))
    have := g.left_apart (x := z) (by simp) hw
    exact frame3 y (by omega) (by omega)
  have hrr3 : TRep A m3 i px r := by
    refine hrr.congr ?_
    rintro y ⟨w, a, hw, h1, h2⟩
    have := hsl w a (.inr (.inr (.inr hw)))
    have := g.right_apart (x := z) (by simp) hw
    exact frame3 y (by omega) (by omega)
  have hc3 : ∀ d, ld m3 (childAt (A + x) d) = ld m (childAt (A + x) d) := by
    intro d
    have := hcz d
    exact ld_congr (fun y h1 h2 => frame3 y (by omega) (by omega))
  -- children
  obtain ⟨m4, a1, a2, a3, a4⟩ := adopt_spec (base := base) (x := A + x) (d := false) (by omega) (by omega) hltz hr3 (fun y hy => g.ring_apart hy) hl3 g.left (hc3 false) hcl rfl
    (fun y s' hy w hw => g.left_apart hw hy)
  have hlroot : l ≠ .leaf → ∃ pl sl', ptr A l = A + pl ∧ l.mem pl sl' := fun h => ptr_mem h
  have hrr4 : TRep A m4 i px r := by
    refine hrr3.congr ?_
    rintro y ⟨w, a, hw, h1, h2⟩
    have := g.right_apart (x := z) (by simp) hw
    have := childAt_cases (A + z) false
    refine a4 y (by omega) (fun hl => ?_)
    obtain ⟨pl, s1, e1, e2⟩ := hlroot hl
    have := g.sides e2 hw
    omega
  have hc4 : ld m4 (childAt (A + x) true) = ptr A r := by
    rw [← hcr, ← hc3 true]
    have := hcz true
    have := childAt_cases (A + z) false
    refine ld_congr (fun y h1 h2 => a4 y (by omega) (fun hl => ?_))
    obtain ⟨pl, s1, e1, e2⟩ := hlroot hl
    have := hx pl s1 (.inr (.inl e2))
    omega
  obtain ⟨m5, b1, b2, b3, b4⟩ := adopt_spec (base := base) (x := A + x) (d := true) (by omega) (by omega) hltz a2 (fun y hy => g.ring_apart hy) hrr4 g.right hc4 rfl (by simp)
    (fun y s' hy w hw => g.right_apart hw hy)
  have hrroot : r ≠ .leaf → ∃ pr sr, ptr A r = A + pr ∧ r.mem pr sr := fun h => ptr_mem h
  have hup : (if A + x = ld c.mem (tbin base (index c.mem (A + x))) then
      some { c with mem := st c.mem (tbin base (index c.mem (A + x))) (A + z),
                    treemap := if A + z = 0 then c.treemap &&& ~~~idx2bit (index c.mem (A + x)) else c.treemap }
    else if base ≤ par then
      some { c with mem := st c.mem (childAt par (decide (ld c.mem (childAt par false) ≠ A + x))) (A + z) }
    else none) = some { c with mem := st m sl (A + z) } := by
    rw [← hm, hi]
    rcases hk with ⟨h1, h2⟩ | ⟨h1, h2, h3⟩
    · rw [if_pos h1, if_neg (show ¬(A + z = 0) by omega), h2]
    · rw [if_neg h1, if_pos h2, h3]
  refine ⟨m5, ?_, ⟨?_, ?_, b3⟩, ?_, ?_⟩
  · simp only [relink]
    rw [hup]
    simp only [Option.bind_some]
    rw [if_neg (show ¬(A + z = 0) by omega), if_pos (show base ≤ A + z by omega), show setParent (st m sl (A + z)) (A + z) par = m3 from rfl, a1]
    simp only [Option.bind_some]
    rw [b1]
    rfl
  · convert b2 using 1
    funext d
    cases d <;> simp [kid]
  · refine a3.congr ?_
    rintro y ⟨w, a, hw, h1, h2⟩
    have := g.left_apart (x := z) (by simp) hw
    have := childAt_cases (A + z) true
    refine b4 y (by omega) (fun hr => ?_)
    obtain ⟨pr, s1, e1, e2⟩ := hrroot hr
    have := g.sides hw e2
    omega
  · have h1 : ld m5 sl = ld m4 sl := by
      have := childAt_cases (A + z) true
      refine ld_congr (fun y h1 h2 => b4 y (by omega) (fun hr => ?_))
      obtain ⟨pr, s1, e1, e2⟩ := hrroot hr
      have := hsl pr s1 (.inr (.inr (.inr e2)))
      omega
    have h2 : ld m4 sl = ld m3 sl := by
      have := childAt_cases (A + z) false
      refine ld_congr (fun y h1 h2 => a4 y (by omega) (fun hl => ?_))
      obtain ⟨pl, s1, e1, e2⟩ := hlroot hl
      have := hsl pl s1 (.inr (.inr (.inl e2)))
      omega
    rw [h1, h2]
    simp only [m3, setParent]
    rw [ld_st_ne (by omega), ld_st_same (by omega)]
  · intro y h1 h2
    have hz : ∀ a, A + z + 16 ≤ a → a < A + z + 60 → y ≠ a := fun a h3 h4 e => h1 ⟨z, s, g.root, by omega, by omega⟩
    have hout : ∀ w s', (Tree.node s z q l r).mem w s' → y < A + w + 16 ∨ A + w + 60 ≤ y := by
      intro w s' hw
      by_contra hcon
      exact h1 ⟨w, s', hw, by omega, by omega⟩
    have hoz := hout z s g.root
    have hf := childAt_cases (A + z) false
    have ht := childAt_cases (A + z) true
    rw [b4 y (by omega) (fun hr => by obtain ⟨pr, s1, e1, e2⟩ := hrroot hr; have := hout pr s1 (.inr (.inr e2)); omega),
      a4 y (by omega) (fun hl => by obtain ⟨pl, s1, e1, e2⟩ := hlroot hl; have := hout pl s1 (.inr (.inl e2)); omega),
      frame3 y h2 (by omega)]

end

end Verif.Lnk
