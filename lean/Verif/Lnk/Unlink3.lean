import Verif.Lnk.Unlink2
/-!
# `unlink_large_chunk` of any chunk of a trie in memory
-/
namespace Verif.Lnk
open Dl (Tree dir keyBits idx2bit)
open Tag (Mem ld st ld_st_same ld_st_ne ld_congr st_of_ne chunksize)

/-- `bit_is_marked` -/
theorem bit_test {x : BitVec 32} {i : Nat} (hi : i < 32) : x &&& idx2bit i = 0 ↔ x.getLsbD i = false := by
  rw [Dl.eq_zero_iff]
  constructor
  · intro h
    have := h i hi
    simpa [Dl.idx2bit_get hi] using this
  · intro h j hj
    rw [BitVec.getLsbD_and, Dl.idx2bit_get hj]
    by_cases e : i = j
    · subst e; simp [h]
    · simp [e]

/-- marking a bit that is marked -/
theorem bit_or {x : BitVec 32} {i : Nat} (hi : i < 32) (h : ¬x.getLsbD i = false) : x ||| idx2bit i = x := by
  apply BitVec.eq_of_getLsbD_eq
  intro j hj
  rw [BitVec.getLsbD_or, Dl.idx2bit_get hj]
  by_cases e : i = j
  · subst e; simp at h; simp [h]
  · simp [e]

section
variable {A : Nat} {i : Nat}

theorem Place.apart {base : Nat} {m : Mem} {u : Tree} {sl par : Nat} (hb : base + 944 ≤ A) (hi : i < 32) (hk : Place A base i m u sl par) :
    ∀ y s', u.mem y s' → sl + 8 ≤ A + y + 16 ∨ A + y + 60 ≤ sl := by
  intro y s' hy
  rcases hk with ⟨h1, h2⟩ | ⟨h1, P, d, h2, h3, h4, h5, h6⟩
  · rw [h1]; unfold tbin; omega
  · have := (h5 y s' hy).1
    have := childAt_cases par d
    omega

theorem unlink_at {base x : Nat} {c : State} (hb : base + 944 ≤ A) (hi : i < 32) : ∀ (t : Tree) (b par sl s : Nat), Good A t b → TRep A c.mem i par t →
    t.mem x s → ld c.mem sl = ptr A t → Place A base i c.mem t sl par →
    ∃ m', unlinkLarge base c (A + x) = some { c with mem := m', treemap := if sl = tbin base i ∧ t.unlink x = .leaf then c.treemap &&& ~~~idx2bit i else c.treemap } ∧
      TRep A m' i par (t.unlink x) ∧ ld m' sl = ptr A (t.unlink x) ∧ ∀ y, ¬Own A t y → (y < sl ∨ sl + 8 ≤ y) → m' y = c.mem y := by
  intro t
  induction t with
  | leaf => intro b par sl s _ _ h; exact h.elim
  | node s' p q l r ihl ihr =>
    intro b par sl s g h hx hs hk
    by_cases hxq : x ∈ p :: q
    · exact unlink_local hb hi g h hxq hs hk
    · have hsl := hk.apart hb hi
      have h0 : 0 < A := by omega
      have hlp := g.lt p s' g.root
      have hin : x ≠ p ∧ x ∉ q := by simpa using hxq
      obtain ⟨hr, hl, hrr⟩ := h
      -- below: not the root of the bin
      have hroot : ∀ y s2, l.mem y s2 ∨ r.mem y s2 → A + y ≠ ld c.mem (tbin base i) := by
        intro y s2 hy
        rcases hk with ⟨h1, h2⟩ | ⟨h1, P, d, h2, h3, h4, h5, h6⟩
        · rw [← h1, hs, ptr]
          rcases hy with hy | hy
          · have := g.left_apart (x := p) (by simp) hy; omega
          · have := g.right_apart (x := p) (by simp) hy; omega
        · exact (h5 y s2 (.inr hy)).2
      have hslot : ∀ d, childAt (A + p) d ≠ tbin base i := by
        intro d
        have := childAt_cases (A + p) d
        unfold tbin
        omega
      have hslp : ∀ d, sl + 8 ≤ childAt (A + p) d ∨ childAt (A + p) d + 8 ≤ sl := by
        intro d
        have := childAt_cases (A + p) d
        have := hsl p s' g.root
        omega
      rcases hx with hx | hx | hx
      · exact absurd hx.2 hxq
      · have hnr : r.unlink x = r := by
          refine unlink_same (fun s2 h2 => ?_)
          have := g.sides hx h2
          omega
        have hunl : (Tree.node s' p q l r).unlink x = .node s' p q (l.unlink x) r := by
          simp only [Tree.unlink]
          rw [if_neg hin.1, if_neg hin.2, hnr]
        obtain ⟨m', e1, e2, e3, e4⟩ := ihl (b - 1) (A + p) (childAt (A + p) false) s g.left hl hx (hr.child false)
          (.inr ⟨by omega, p, false, rfl, hlp, rfl, fun y s2 hy => ⟨g.left_apart (by simp) hy, hroot y s2 (.inl hy)⟩, fun e => by cases e⟩)
        have hcp := childAt_cases (A + p) false
        have hout : ∀ y, (y < A + p + 32 ∨ A + p + 40 ≤ y) → (∀ w s2, l.mem w s2 → y < A + w + 16 ∨ A + w + 60 ≤ y) → m' y = c.mem y := by
          intro y h1 h2
          refine e4 y ?_ (by simp only [childAt, Bool.false_eq_true, if_false]; omega)
          rintro ⟨w, s2, hw, h3, h4⟩
          have := h2 w s2 hw
          omega
        rw [hunl]
        refine ⟨m', ?_, ⟨?_, e2, hrr.congr ?_⟩, ?_, ?_⟩
        · rw [e1]
          have := hslot false
          simp [this]
        · have hn := hr.slot (m' := m') (childAt (A + p) false) (.inl ⟨false, rfl⟩) (fun y hy => g.ring_apart hy) ?_
          · rw [e3] at hn
            convert hn using 1
            funext d
            cases d <;> simp [kid, childAt]
          · rintro y ⟨w, hw, h1, h2⟩ h3
            simp only [childAt, Bool.false_eq_true, if_false] at h3
            exact hout y (by omega) (fun w' s2 hw' => by have := g.left_apart hw hw'; omega)
        · rintro y ⟨w, s2, hw, h1, h2⟩
          have := g.right_apart (x := p) (by simp) hw
          exact hout y (by omega) (fun w' s3 hw' => by have := g.sides hw' hw; omega)
        · have h1 := hslp false
          simp only [childAt, Bool.false_eq_true, if_false] at h1
          rw [ptr] at hs ⊢
          rw [← hs]
          exact ld_congr (fun y h2 h3 => hout y (by omega) (fun w' s3 hw' => by have := hsl w' s3 (.inr (.inl hw')); omega))
        · intro y h1 h2
          refine hout y ?_ (fun w s2 hw => ?_)
          · by_contra hcon
            exact h1 ⟨p, s', g.root, by omega, by omega⟩
          · by_contra hcon
            exact h1 ⟨w, s2, .inr (.inl hw), by omega, by omega⟩
      · have hnl : l.unlink x = l := by
          refine unlink_same (fun s2 h2 => ?_)
          have := g.sides h2 hx
          omega
        have hunl : (Tree.node s' p q l r).unlink x = .node s' p q l (r.unlink x) := by
          simp only [Tree.unlink]
          rw [if_neg hin.1, if_neg hin.2, hnl]
        have hne : ld c.mem (childAt (A + p) false) ≠ ptr A r := by
          rw [hr.child false]
          have hrl : r ≠ .leaf := by rintro rfl; exact hx
          obtain ⟨pr, sr, e1, e2⟩ := ptr_mem (A := A) hrl
          rw [e1]
          simp only [kid, Bool.false_eq_true, if_false]
          cases l with
          | leaf => simp only [ptr]; omega
          | node s2 p2 q2 l2 r2 =>
            have := g.sides (x := p2) (s' := s2) (.inl ⟨rfl, by simp⟩) e2
            simp only [ptr]
            omega
        obtain ⟨m', e1, e2, e3, e4⟩ := ihr (b - 1) (A + p) (childAt (A + p) true) s g.right hrr hx (hr.child true)
          (.inr ⟨by omega, p, true, rfl, hlp, rfl, fun y s2 hy => ⟨g.right_apart (by simp) hy, hroot y s2 (.inr hy)⟩, fun _ => hne⟩)
        have hcp := childAt_cases (A + p) true
        have hout : ∀ y, (y < A + p + 40 ∨ A + p + 48 ≤ y) → (∀ w s2, r.mem w s2 → y < A + w + 16 ∨ A + w + 60 ≤ y) → m' y = c.mem y := by
          intro y h1 h2
          refine e4 y ?_ (by simp only [childAt, if_pos]; omega)
          rintro ⟨w, s2, hw, h3, h4⟩
          have := h2 w s2 hw
          omega
        rw [hunl]
        refine ⟨m', ?_, ⟨?_, hl.congr ?_, e2⟩, ?_, ?_⟩
        · rw [e1]
          have := hslot true
          simp [this]
        · have hn := hr.slot (m' := m') (childAt (A + p) true) (.inl ⟨true, rfl⟩) (fun y hy => g.ring_apart hy) ?_
          · rw [e3] at hn
            convert hn using 1
            funext d
            cases d <;> simp [kid, childAt]
          · rintro y ⟨w, hw, h1, h2⟩ h3
            simp only [childAt, if_pos] at h3
            exact hout y (by omega) (fun w' s2 hw' => by have := g.right_apart hw hw'; omega)
        · rintro y ⟨w, s2, hw, h1, h2⟩
          have := g.left_apart (x := p) (by simp) hw
          exact hout y (by omega) (fun w' s3 hw' => by have := g.sides hw hw'; omega)
        · have h1 := hslp true
          simp only [childAt, if_pos] at h1
          rw [ptr] at hs ⊢
          rw [← hs]
          exact ld_congr (fun y h2 h3 => hout y (by omega) (fun w' s3 hw' => by have := hsl w' s3 (.inr (.inr hw')); omega))
        · intro y h1 h2
          refine hout y ?_ (fun w s2 hw => ?_)
          · by_contra hcon
            exact h1 ⟨p, s', g.root, by omega, by omega⟩
          · by_contra hcon
            exact h1 ⟨w, s2, .inr (.inr hw), by omega, by omega⟩

/-- `unlink_large_chunk` of a chunk of the trie in bin `i` -/
theorem unlinkLarge_spec {base x s b : Nat} {t : Tree} {c : State} (hb : base + 944 ≤ A) (hi : i < 32) (g : Good A t b) (h : TRep A c.mem i (tbin base i) t)
    (hs : ld c.mem (tbin base i) = ptr A t) (hx : t.mem x s) :
    ∃ m', unlinkLarge base c (A + x) = some { c with mem := m', treemap := if (t.unlink x).isLeaf then c.treemap &&& ~~~idx2bit i else c.treemap } ∧
      TRep A m' i (tbin base i) (t.unlink x) ∧ ld m' (tbin base i) = ptr A (t.unlink x) ∧
      ∀ y, ¬Own A t y → (y < tbin base i ∨ tbin base i + 8 ≤ y) → m' y = c.mem y := by
  obtain ⟨m', e1, e2, e3, e4⟩ := unlink_at hb hi t b (tbin base i) (tbin base i) s g h hx hs (.inl ⟨rfl, rfl⟩)
  refine ⟨m', ?_, e2, e3, e4⟩
  rw [e1]
  congr 2
  by_cases e : t.unlink x = .leaf
  · rw [if_pos ⟨rfl, e⟩, if_pos (Tree.isLeaf_iff.2 e)]
  · rw [if_neg (fun h => e h.2), if_neg (fun h => e (Tree.isLeaf_iff.1 h))]

/-- `insert_large_chunk` into the trie in bin `i`. `c0` is the state after the fields of the chunk are set (L3664-3665). -/
theorem insertLarge_spec {base x s b : Nat} {t : Tree} {c : State} (hb : base + 944 ≤ A) (hi : Dl.treeIndex s = i) (hbk : b = keyBits i) (g : Good A t b)
    (h : TRep A c.mem i (tbin base i) t) (hs : ld c.mem (tbin base i) = ptr A t) (hx : A + x + 64 < 2 ^ 64)
    (fresh : ∀ y s', t.mem y s' → x + 64 ≤ y ∨ y + 64 ≤ x) (hz : ∀ y s', t.mem y s' → chunksize c.mem (A + y) = s')
    (hmap : c.treemap &&& idx2bit i = 0 ↔ t = .leaf) :
    ∃ m', insertLarge base c (A + x) s = some { c with mem := m', treemap := c.treemap ||| idx2bit i } ∧ TRep A m' i (tbin base i) (t.insert x s b) ∧
      ld m' (tbin base i) = ptr A (t.insert x s b) ∧
      ∀ y, ¬Own A t y → (y < A + x + 16 ∨ A + x + 60 ≤ y) → (y < tbin base i ∨ tbin base i + 8 ≤ y) → m' y = c.mem y := by
  have hi32 : i < 32 := hi ▸ Dl.treeIndex_lt s
  have htb : tbin base i + 8 ≤ A := by unfold tbin; omega
  let m0 := st (st (st32 c.mem (A + x + 56) i) (childAt (A + x) true) 0) (childAt (A + x) false) 0
  have hm0 : ∀ y, (y < A + x + 32 ∨ A + x + 60 ≤ y ∨ (A + x + 48 ≤ y ∧ y < A + x + 56)) → m0 y = c.mem y := by
    intro y hy
    simp only [m0, childAt, Bool.false_eq_true, if_true, if_false]
    rw [st_of_ne (by omega), st_of_ne (by omega), st32_of_ne (by omega)]
  have hidx : index m0 (A + x) = i := by
    unfold index
    have : ld32 m0 (A + x + 56) = ld32 (st32 c.mem (A + x + 56) i) (A + x + 56) := by
      refine ld32_congr (fun y h1 h2 => ?_)
      simp only [m0, childAt, Bool.false_eq_true, if_true, if_false]
      rw [st_of_ne (by omega), st_of_ne (by omega)]
    rw [this, ld32_st32_same (by omega)]
  have hch : ∀ d, ld m0 (childAt (A + x) d) = 0 := by
    intro d
    cases d
    · simp only [m0]
      rw [ld_st_same (by omega)]
    · simp only [m0, childAt, Bool.false_eq_true, if_true, if_false]
      rw [ld_st_ne (by omega), ld_st_same (by omega)]
  have hrep0 : TRep A m0 i (tbin base i) t := by
    refine h.congr ?_
    rintro y ⟨w, s', hw, h1, h2⟩
    have := fresh w s' hw
    exact hm0 y (by omega)
  have hsz0 : ∀ y s', t.mem y s' → chunksize m0 (A + y) = s' := by
    intro y s' hy
    rw [← hz y s' hy]
    have := fresh y s' hy
    unfold chunksize
    simp only [Tag.head]
    rw [ld_congr (fun w h1 h2 => hm0 w (by omega))]
  have hs0 : ld m0 (tbin base i) = ptr A t := by
    rw [← hs]
    exact ld_congr (fun w h1 h2 => hm0 w (by omega))
  have hor : c.treemap &&& idx2bit i ≠ 0 → c.treemap ||| idx2bit i = c.treemap := fun h1 => bit_or hi32 (fun h => h1 ((bit_test hi32).2 h))
  by_cases ht : t = .leaf
  · subst ht
    refine ⟨newNode m0 (A + x) (tbin base i) (tbin base i), ?_, ?_, ?_, ?_⟩
    · unfold insertLarge
      simp only
      rw [hi, if_pos (hmap.2 rfl)]
    · exact newNode_rep hx (by omega) (by omega) hidx hch
    · simp only [Tree.insert, ptr]
      exact newNode_slot (by omega) (by omega)
    · intro y h1 h2 h3
      rw [newNode_frame (by omega) (by omega) (by omega)]
      exact hm0 y (by omega)
  · have hne : ¬(c.treemap &&& idx2bit i = 0) := fun h => ht (hmap.1 h)
    obtain ⟨m', e1, e2, e3, e4⟩ := insertLoop_spec (s := s) (show base ≤ A by omega) (by omega) hx hidx hch t b (2 ^ 64) (tbin base i) g
      (by rw [hbk]; unfold keyBits; split <;> omega) ht (Nat.le_of_lt g.height) hrep0 hsz0 fresh
    refine ⟨m', ?_, e2, ?_, ?_⟩
    · unfold insertLarge
      simp only
      rw [hi, if_neg hne, hs0, key_start hi32, ← hbk, e1, hor hne]
      rfl
    · rw [e3, ← hs0]
      refine ld_congr (fun y h1 h2 => e4 y ?_ (by omega))
      rintro ⟨w, s', hw, h3, h4⟩
      omega
    · intro y h1 h2 h3
      rw [e4 y h1 (by omega)]
      exact hm0 y (by omega)

end

end Verif.Lnk
