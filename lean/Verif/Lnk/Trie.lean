import Verif.Lnk.Ring
/-!
# Tries in memory
-/
namespace Verif.Lnk
open Dl (Tree dir keyBits)
open Tag (Mem ld st ld_st_same ld_st_ne ld_congr st_of_ne chunksize)

/-- address of the root, 0 if there is none -/
def ptr (A : Nat) : Tree → Nat
  | .leaf => 0
  | .node _ p _ _ _ => A + p

/-- one node in memory: chunk `p`, others of the same size `q`; `ch`: addresses of its children; chunks count from `A` -/
structure NRep (A : Nat) (m : Mem) (i par p : Nat) (q : List Nat) (ch : Bool → Nat) : Prop where
  parent : parent m (A + p) = par
  child : ∀ d, ld m (childAt (A + p) d) = ch d
  index : ∀ x ∈ p :: q, index m (A + x) = i
  ring : Seg m (A + p) (q.map (A + ·)) (A + p)
  chain : ∀ x ∈ q, Lnk.parent m (A + x) = 0 ∧ ∀ d, ld m (childAt (A + x) d) = 0

/-- `child[1]` or `child[0]` -/
def kid (l r : Tree) (d : Bool) : Tree := if d then r else l

/-- the trie `t` with number `i` in memory, `par` is the `parent` of its root -/
def TRep (A : Nat) (m : Mem) (i : Nat) : Nat → Tree → Prop
  | _, .leaf => True
  | par, .node _ p q l r => NRep A m i par p q (fun d => ptr A (kid l r d)) ∧ TRep A m i (A + p) l ∧ TRep A m i (A + p) r

/-- bytes of the links of the chunks in `t` -/
def Own (A : Nat) (t : Tree) (y : Nat) : Prop := ∃ q s, t.mem q s ∧ A + q + 16 ≤ y ∧ y < A + q + 60

/-- what is known of a trie with `b` bits to go -/
structure Good (A : Nat) (t : Tree) (b : Nat) : Prop where
  path : t.Path b
  uniq : t.Uniq
  sep : ∀ x s y s', t.mem x s → t.mem y s' → x = y ∨ x + 64 ≤ y ∨ y + 64 ≤ x
  lt : ∀ x s, t.mem x s → A + x + 64 < 2 ^ 64

theorem childAt_cases (p : Nat) (d : Bool) : childAt p d = p + 32 ∨ childAt p d = p + 40 := by cases d <;> simp [childAt]

theorem childAt_ne {p : Nat} {d d' : Bool} (h : d ≠ d') : childAt p d + 8 ≤ childAt p d' ∨ childAt p d' + 8 ≤ childAt p d := by
  cases d <;> cases d' <;> simp [childAt] at *

theorem ptr_zero {A : Nat} (hA : 0 < A) {t : Tree} : ptr A t = 0 ↔ t = .leaf := by
  cases t with
  | leaf => simp [ptr]
  | node s p q l r => simp only [ptr, reduceCtorEq, iff_false]; omega

theorem ptr_mem {A : Nat} {t : Tree} (h : t ≠ .leaf) : ∃ p s, ptr A t = A + p ∧ t.mem p s := by
  cases t with
  | leaf => exact absurd rfl h
  | node s p q l r => exact ⟨p, s, rfl, .inl ⟨rfl, by simp⟩⟩

section
variable {A : Nat} {m m' : Mem} {i : Nat}

/-- only the word `sl` of the node is touched, one of its child pointers, or none -/
theorem NRep.slot {par p : Nat} {q : List Nat} {ch : Bool → Nat} (h : NRep A m i par p q ch) (sl : Nat)
    (hsl : (∃ d, sl = childAt (A + p) d) ∨ ∀ x ∈ p :: q, sl + 8 ≤ A + x + 16 ∨ A + x + 60 ≤ sl)
    (hq : ∀ x ∈ q, x + 64 ≤ p ∨ p + 64 ≤ x)
    (e : ∀ y, (∃ x ∈ p :: q, A + x + 16 ≤ y ∧ y < A + x + 60) → (y < sl ∨ sl + 8 ≤ y) → m' y = m y) :
    NRep A m' i par p q (fun d => if sl = childAt (A + p) d then ld m' sl else ch d) := by
  have hd : ∀ d, sl = childAt (A + p) d → sl = A + p + 32 ∨ sl = A + p + 40 := fun d h => by rw [h]; exact childAt_cases _ _
  have hout : ∀ (k : Nat) (x : Nat), x ∈ p :: q → (k + 8 ≤ 32 ∨ 48 ≤ k) → sl + 8 ≤ A + x + k ∨ A + x + k + 8 ≤ sl ∨ A + x + 60 ≤ sl ∨ sl + 8 ≤ A + x + 16 := by
    intro k x hx hk
    rcases hsl with ⟨d, hsl⟩ | hsl
    · have := hd d hsl
      rcases List.mem_cons.1 hx with rfl | hx
      · omega
      · have := hq x hx; omega
    · have := hsl x hx; omega
  have word : ∀ (k : Nat) (x : Nat), x ∈ p :: q → 16 ≤ k → k + 8 ≤ 60 → (k + 8 ≤ 32 ∨ 48 ≤ k) → ld m' (A + x + k) = ld m (A + x + k) := by
    intro k x hx k1 k2 k3
    have := hout k x hx k3
    exact ld_congr (fun y h1 h2 => e y ⟨x, hx, by omega, by omega⟩ (by omega))
  have wordq : ∀ (k : Nat) (x : Nat), x ∈ q → 16 ≤ k → k + 8 ≤ 60 → ld m' (A + x + k) = ld m (A + x + k) := by
    intro k x hx k1 k2
    refine ld_congr (fun y h1 h2 => e y ⟨x, by simp [hx], by omega, by omega⟩ ?_)
    have := hq x hx
    rcases hsl with ⟨d, hsl⟩ | hsl
    · have := hd d hsl; omega
    · have := hsl x (by simp [hx]); omega
  constructor
  · rw [← h.parent]; exact word 48 p (by simp) (by omega) (by omega) (by omega)
  · intro d
    by_cases hs : sl = childAt (A + p) d
    · rw [if_pos hs, hs]
    · rw [if_neg hs, ← h.child d]
      have hc := childAt_cases (A + p) d
      refine ld_congr (fun y h1 h2 => e y ⟨p, by simp, by omega, by omega⟩ ?_)
      rcases hsl with ⟨d', hsl⟩ | hsl
      · have hne : d ≠ d' := by rintro rfl; exact hs hsl
        have := childAt_ne (p := A + p) hne
        rw [← hsl] at this
        omega
      · have := hsl p (by simp); omega
  · intro x hx
    rw [← h.index x hx]
    refine ld32_congr (fun y h1 h2 => e y ⟨x, hx, by omega, by omega⟩ ?_)
    rcases hsl with ⟨d, hsl⟩ | hsl
    · have := hd d hsl
      rcases List.mem_cons.1 hx with rfl | hx
      · omega
      · have := hq x hx; omega
    · have := hsl x hx; omega
  · refine seg_congr (fun y hy => ?_) (fun y hy => ?_) h.ring
    · have : ∃ x ∈ p :: q, y = A + x := by
        rcases List.mem_cons.1 hy with rfl | hy
        · exact ⟨p, by simp, rfl⟩
        · obtain ⟨x, hx, rfl⟩ := List.mem_map.1 hy; exact ⟨x, by simp [hx], rfl⟩
      obtain ⟨x, hx, rfl⟩ := this
      exact word 16 x hx (by omega) (by omega) (by omega)
    · have : ∃ x ∈ p :: q, y = A + x := by
        rcases List.mem_append.1 hy with hy | hy
        · obtain ⟨x, hx, rfl⟩ := List.mem_map.1 hy; exact ⟨x, by simp [hx], rfl⟩
        · exact ⟨p, by simp, by simpa using hy⟩
      obtain ⟨x, hx, rfl⟩ := this
      exact word 24 x hx (by omega) (by omega) (by omega)
  · intro x hx
    obtain ⟨h1, h2⟩ := h.chain x hx
    refine ⟨by rw [← h1]; exact wordq 48 x hx (by omega) (by omega), fun d => ?_⟩
    rw [← h2 d]
    cases d
    · exact wordq 32 x hx (by omega) (by omega)
    · exact wordq 40 x hx (by omega) (by omega)

theorem NRep.congr {par p : Nat} {q : List Nat} {ch : Bool → Nat} (h : NRep A m i par p q ch)
    (e : ∀ y, (∃ x ∈ p :: q, A + x + 16 ≤ y ∧ y < A + x + 60) → m' y = m y) : NRep A m' i par p q ch := by
  have w : ∀ (k : Nat) (x : Nat), x ∈ p :: q → 16 ≤ k → k + 8 ≤ 60 → ld m' (A + x + k) = ld m (A + x + k) :=
    fun k x hx k1 k2 => ld_congr (fun y h1 h2 => e y ⟨x, hx, by omega, by omega⟩)
  have wc : ∀ (x : Nat) (d : Bool), x ∈ p :: q → ld m' (childAt (A + x) d) = ld m (childAt (A + x) d) := by
    intro x d hx
    cases d
    · exact w 32 x hx (by omega) (by omega)
    · exact w 40 x hx (by omega) (by omega)
  constructor
  · rw [← h.parent]; exact w 48 p (by simp) (by omega) (by omega)
  · intro d; rw [← h.child d]; exact wc p d (by simp)
  · intro x hx
    rw [← h.index x hx]
    exact ld32_congr (fun y h1 h2 => e y ⟨x, hx, by omega, by omega⟩)
  · refine seg_congr (fun y hy => ?_) (fun y hy => ?_) h.ring
    · have : ∃ x ∈ p :: q, y = A + x := by
        rcases List.mem_cons.1 hy with rfl | hy
        · exact ⟨p, by simp, rfl⟩
        · obtain ⟨x, hx, rfl⟩ := List.mem_map.1 hy; exact ⟨x, by simp [hx], rfl⟩
      obtain ⟨x, hx, rfl⟩ := this
      exact w 16 x hx (by omega) (by omega)
    · have : ∃ x ∈ p :: q, y = A + x := by
        rcases List.mem_append.1 hy with hy | hy
        · obtain ⟨x, hx, rfl⟩ := List.mem_map.1 hy; exact ⟨x, by simp [hx], rfl⟩
        · exact ⟨p, by simp, by simpa using hy⟩
      obtain ⟨x, hx, rfl⟩ := this
      exact w 24 x hx (by omega) (by omega)
  · intro x hx
    obtain ⟨h1, h2⟩ := h.chain x hx
    exact ⟨by rw [← h1]; exact w 48 x (by simp [hx]) (by omega) (by omega), fun d => by rw [← h2 d]; exact wc x d (by simp [hx])⟩

theorem TRep.congr : ∀ {t : Tree} {par : Nat}, (∀ y, Own A t y → m' y = m y) → TRep A m i par t → TRep A m' i par t := by
  intro t
  induction t with
  | leaf => intro _ _ _; trivial
  | node s p q l r ihl ihr =>
    intro par e h
    refine ⟨h.1.congr ?_, ihl ?_ h.2.1, ihr ?_ h.2.2⟩
    · rintro y ⟨x, hx, h1⟩; exact e y ⟨x, s, .inl ⟨rfl, hx⟩, h1⟩
    · rintro y ⟨x, s', hx, h1⟩; exact e y ⟨x, s', .inr (.inl hx), h1⟩
    · rintro y ⟨x, s', hx, h1⟩; exact e y ⟨x, s', .inr (.inr hx), h1⟩

/-- the root gets another parent -/
theorem TRep.reparent {t : Tree} {par par' b : Nat} (g : Good A t b) (h : TRep A m i par t) (hp : t ≠ .leaf → parent m' (ptr A t) = par')
    (e : ∀ y, Own A t y → y < ptr A t + 48 ∨ ptr A t + 56 ≤ y → m' y = m y) : TRep A m' i par' t := by
  cases t with
  | leaf => trivial
  | node s p q l r =>
    have hp := hp (by simp)
    simp only [ptr] at e hp
    have hm : ∀ x ∈ p :: q, (Tree.node s p q l r).mem x s := fun x hx => .inl ⟨rfl, hx⟩
    have hpm := hm p (by simp)
    have hnd : (p :: q).Nodup := g.path.1
    have hq : ∀ x ∈ q, x + 64 ≤ p ∨ p + 64 ≤ x := by
      intro x hx
      have := g.sep x s p s (hm x (by simp [hx])) hpm
      have : x ≠ p := by rintro rfl; exact (List.nodup_cons.1 hnd).1 hx
      omega
    have hl : ∀ x s', l.mem x s' → x + 64 ≤ p ∨ p + 64 ≤ x := by
      intro x s' hx
      have h1 := g.sep x s' p s (.inr (.inl hx)) hpm
      have : x ≠ p := by
        rintro rfl
        exact (g.path.2.1 x s' hx).2 (g.uniq x s' s (.inr (.inl hx)) hpm)
      omega
    have hr : ∀ x s', r.mem x s' → x + 64 ≤ p ∨ p + 64 ≤ x := by
      intro x s' hx
      have h1 := g.sep x s' p s (.inr (.inr hx)) hpm
      have : x ≠ p := by
        rintro rfl
        exact (g.path.2.2.1 x s' hx).2 (g.uniq x s' s (.inr (.inr hx)) hpm)
      omega
    -- words other than the parent of the root
    have w : ∀ (k : Nat) (x : Nat), x ∈ p :: q → 16 ≤ k → k + 8 ≤ 60 → (x = p → k + 8 ≤ 48) → ld m' (A + x + k) = ld m (A + x + k) := by
      intro k x hx k1 k2 k3
      refine ld_congr (fun y h1 h2 => e y ⟨x, s, hm x hx, by omega, by omega⟩ ?_)
      rcases List.mem_cons.1 hx with rfl | hx
      · have := k3 rfl; omega
      · have := hq x hx; omega
    have wc : ∀ (x : Nat) (d : Bool), x ∈ p :: q → ld m' (childAt (A + x) d) = ld m (childAt (A + x) d) := by
      intro x d hx
      cases d
      · exact w 32 x hx (by omega) (by omega) (by omega)
      · exact w 40 x hx (by omega) (by omega) (by omega)
    refine ⟨⟨hp, fun d => by rw [← h.1.child d]; exact wc p d (by simp), fun x hx => ?_, ?_, fun x hx => ?_⟩, h.2.1.congr ?_, h.2.2.congr ?_⟩
    · rw [← h.1.index x hx]
      refine ld32_congr (fun y h1 h2 => e y ⟨x, s, hm x hx, by omega, by omega⟩ ?_)
      rcases List.mem_cons.1 hx with rfl | hx
      · omega
      · have := hq x hx; omega
    · refine seg_congr (fun y hy => ?_) (fun y hy => ?_) h.1.ring
      · have : ∃ x ∈ p :: q, y = A + x := by
          rcases List.mem_cons.1 hy with rfl | hy
          · exact ⟨p, by simp, rfl⟩
          · obtain ⟨x, hx, rfl⟩ := List.mem_map.1 hy; exact ⟨x, by simp [hx], rfl⟩
        obtain ⟨x, hx, rfl⟩ := this
        exact w 16 x hx (by omega) (by omega) (by omega)
      · have : ∃ x ∈ p :: q, y = A + x := by
          rcases List.mem_append.1 hy with hy | hy
          · obtain ⟨x, hx, rfl⟩ := List.mem_map.1 hy; exact ⟨x, by simp [hx], rfl⟩
          · exact ⟨p, by simp, by simpa using hy⟩
        obtain ⟨x, hx, rfl⟩ := this
        exact w 24 x hx (by omega) (by omega) (by omega)
    · obtain ⟨h1, h2⟩ := h.1.chain x hx
      have hxp : x ≠ p := by rintro rfl; exact (List.nodup_cons.1 hnd).1 hx
      exact ⟨by rw [← h1]; exact w 48 x (by simp [hx]) (by omega) (by omega) (fun h => absurd h hxp), fun d => by rw [← h2 d]; exact wc x d (by simp [hx])⟩
    · rintro y ⟨x, s', hx, h1, h2⟩
      have := hl x s' hx
      exact e y ⟨x, s', .inr (.inl hx), h1, h2⟩ (by omega)
    · rintro y ⟨x, s', hx, h1, h2⟩
      have := hr x s' hx
      exact e y ⟨x, s', .inr (.inr hx), h1, h2⟩ (by omega)

end

/-! ## Parts of a trie -/

section
variable {A b s p : Nat} {q : List Nat} {l r : Tree}

theorem Good.left (g : Good A (.node s p q l r) b) : Good A l (b - 1) :=
  ⟨g.path.2.2.2.1, fun x a b ha hb => g.uniq x a b (.inr (.inl ha)) (.inr (.inl hb)), fun x a y b ha hb => g.sep x a y b (.inr (.inl ha)) (.inr (.inl hb)),
    fun x a ha => g.lt x a (.inr (.inl ha))⟩

theorem Good.right (g : Good A (.node s p q l r) b) : Good A r (b - 1) :=
  ⟨g.path.2.2.2.2, fun x a b ha hb => g.uniq x a b (.inr (.inr ha)) (.inr (.inr hb)), fun x a y b ha hb => g.sep x a y b (.inr (.inr ha)) (.inr (.inr hb)),
    fun x a ha => g.lt x a (.inr (.inr ha))⟩

theorem Good.chunk (_g : Good A (.node s p q l r) b) {x : Nat} (hx : x ∈ p :: q) : (Tree.node s p q l r).mem x s := .inl ⟨rfl, hx⟩

theorem Good.root (g : Good A (.node s p q l r) b) : (Tree.node s p q l r).mem p s := g.chunk (by simp)

theorem Good.ring_apart (g : Good A (.node s p q l r) b) {x : Nat} (hx : x ∈ q) : x + 64 ≤ p ∨ p + 64 ≤ x := by
  have := g.sep x s p s (g.chunk (by simp [hx])) g.root
  have : x ≠ p := by rintro rfl; exact (List.nodup_cons.1 g.path.1).1 hx
  omega

theorem Good.left_apart (g : Good A (.node s p q l r) b) {x y s' : Nat} (hx : x ∈ p :: q) (hy : l.mem y s') : x + 64 ≤ y ∨ y + 64 ≤ x := by
  have h1 := g.sep x s y s' (g.chunk hx) (.inr (.inl hy))
  have : x ≠ y := by
    rintro rfl
    exact (g.path.2.1 x s' hy).2 (g.uniq x s' s (.inr (.inl hy)) (g.chunk hx))
  omega

theorem Good.right_apart (g : Good A (.node s p q l r) b) {x y s' : Nat} (hx : x ∈ p :: q) (hy : r.mem y s') : x + 64 ≤ y ∨ y + 64 ≤ x := by
  have h1 := g.sep x s y s' (g.chunk hx) (.inr (.inr hy))
  have : x ≠ y := by
    rintro rfl
    exact (g.path.2.2.1 x s' hy).2 (g.uniq x s' s (.inr (.inr hy)) (g.chunk hx))
  omega

theorem Good.sides (g : Good A (.node s p q l r) b) {x y s' s'' : Nat} (hx : l.mem x s') (hy : r.mem y s'') : x + 64 ≤ y ∨ y + 64 ≤ x := by
  have h1 := g.sep x s' y s'' (.inr (.inl hx)) (.inr (.inr hy))
  have : x ≠ y := by
    rintro rfl
    have e := g.uniq x s' s'' (.inr (.inl hx)) (.inr (.inr hy))
    subst e
    have h2 := (g.path.2.1 x s' hx).1
    have h3 := (g.path.2.2.1 x s' hy).1
    rw [h2] at h3; cases h3
  omega

end

/-- levels of the trie -/
def height : Tree → Nat
  | .leaf => 0
  | .node _ _ _ l r => max (height l) (height r) + 1

theorem height_spine {A : Nat} : ∀ {t : Tree} {b : Nat}, Good A t b → ∃ ls : List Nat, ls.length = height t ∧ ls.Nodup ∧ ∀ x ∈ ls, ∃ s, t.mem x s := by
  intro t
  induction t with
  | leaf => intro b _; exact ⟨[], rfl, List.nodup_nil, by simp⟩
  | node s p q l r ihl ihr =>
    intro b g
    rcases Nat.le_total (height l) (height r) with h | h
    · obtain ⟨ls, h1, h2, h3⟩ := ihr g.right
      refine ⟨p :: ls, by simp only [List.length_cons, height]; omega, List.nodup_cons.2 ⟨fun hp => ?_, h2⟩, ?_⟩
      · obtain ⟨s', hs⟩ := h3 p hp
        have := g.right_apart (x := p) (by simp) hs
        omega
      · intro x hx
        rcases List.mem_cons.1 hx with rfl | hx
        · exact ⟨s, g.root⟩
        · obtain ⟨s', hs⟩ := h3 x hx; exact ⟨s', .inr (.inr hs)⟩
    · obtain ⟨ls, h1, h2, h3⟩ := ihl g.left
      refine ⟨p :: ls, by simp only [List.length_cons, height]; omega, List.nodup_cons.2 ⟨fun hp => ?_, h2⟩, ?_⟩
      · obtain ⟨s', hs⟩ := h3 p hp
        have := g.left_apart (x := p) (by simp) hs
        omega
      · intro x hx
        rcases List.mem_cons.1 hx with rfl | hx
        · exact ⟨s, g.root⟩
        · obtain ⟨s', hs⟩ := h3 x hx; exact ⟨s', .inr (.inl hs)⟩

/-- loops over the trie end -/
theorem Good.height {A : Nat} {t : Tree} {b : Nat} (g : Good A t b) : height t < 2 ^ 64 := by
  obtain ⟨ls, h1, h2, h3⟩ := height_spine g
  have hsub : ls ⊆ List.range (2 ^ 64 - 64) := by
    intro x hx
    obtain ⟨s, hs⟩ := h3 x hx
    have := g.lt x s hs
    rw [List.mem_range]; omega
  have := (List.subperm_of_subset h2 hsub).length_le
  rw [List.length_range] at this
  omega

/-! ## Keys -/

/-- `S << leftshift_for_tree_index(I)` after the shifts of the levels passed, `b` bits to go -/
def key (s b : Nat) : BitVec 64 := BitVec.ofNat 64 s <<< (64 - b)

theorem key_start {s i : Nat} (hi : i < 32) : BitVec.ofNat 64 s <<< leftshift i = key s (keyBits i) := by
  unfold key leftshift keyBits
  by_cases h : i = 31
  · simp [h]
  · rw [if_neg h, if_neg h]
    congr 1
    omega

theorem key_msb {s b : Nat} (hb : b ≤ 64) : (key s b).msb = dir s b := by
  unfold key dir
  rw [BitVec.msb_eq_getLsbD_last, BitVec.getLsbD_shiftLeft]
  by_cases h : b = 0
  · subst h; simp
  · rw [if_neg h]
    have h1 : ¬(64 - 1 < 64 - b) := by omega
    have h2 : 64 - 1 - (64 - b) = b - 1 := by omega
    rw [h2]
    simp only [h1, decide_false, Bool.not_false, Bool.and_true, BitVec.getLsbD_ofNat]
    have : b - 1 < 64 := by omega
    simp [this]

theorem key_shift {s b : Nat} (hb : b ≤ 64) : key s b <<< 1 = key s (b - 1) := by
  unfold key
  rw [← BitVec.shiftLeft_add]
  by_cases h : b = 0
  · subst h
    rw [BitVec.shiftLeft_eq_zero (by omega), BitVec.shiftLeft_eq_zero (by omega)]
  · congr 1
    omega

end Verif.Lnk
