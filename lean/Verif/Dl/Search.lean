import Verif.Dl.Inv
import Mathlib.Data.Nat.Bits
/-!
# Searching the tries: the chunk found is large enough, and the smallest such chunk
-/
namespace Verif.Dl

theorem sub64_ge {s nb : Nat} (hs : s < 2 ^ 64) (h : nb ≤ s) : sub64 s nb = s - nb := by unfold sub64; omega
theorem sub64_lt {s nb : Nat} (hn : nb < 2 ^ 64) (h : s < nb) : sub64 s nb = s + 2 ^ 64 - nb := by unfold sub64; omega

/-- the candidate `v` and its surplus `rs` -/
def Ok (P : Nat → Nat → Prop) (nb : Nat) (v : Cand) (rs : Nat) : Prop := match v with
  | none => rs = 2 ^ 64 - nb
  | some (p, s) => P p s ∧ nb ≤ s ∧ s < 2 ^ 64 ∧ rs = s - nb

theorem Ok.le {P : Nat → Nat → Prop} {nb : Nat} {v : Cand} {rs : Nat} (h : Ok P nb v rs) : rs ≤ 2 ^ 64 - nb := by
  unfold Ok at h
  split at h <;> omega

/-- looking at one more chunk -/
theorem Ok.look {P : Nat → Nat → Prop} {nb : Nat} {v : Cand} {rs : Nat} (hn : nb < 2 ^ 64) (h : Ok P nb v rs) {p s : Nat}
    (hP : P p s) (hs : s < 2 ^ 64) :
    Ok P nb (if sub64 s nb < rs then some (p, s) else v) (if sub64 s nb < rs then sub64 s nb else rs) ∧
    (if sub64 s nb < rs then sub64 s nb else rs) ≤ rs ∧ (nb ≤ s → (if sub64 s nb < rs then sub64 s nb else rs) ≤ s - nb) := by
  have hle := h.le
  by_cases hb : nb ≤ s
  · rw [sub64_ge hs hb]
    split
    · refine ⟨⟨hP, hb, hs, rfl⟩, by omega, by omega⟩
    · exact ⟨h, le_refl _, by omega⟩
  · rw [sub64_lt hn (by omega)]
    rw [if_neg (by omega), if_neg (by omega)]
    exact ⟨h, le_refl _, by omega⟩

theorem scan_ok {P : Nat → Nat → Prop} {nb : Nat} (hn : nb < 2 ^ 64) : ∀ {t : Tree} {v : Cand} {rs : Nat}, Ok P nb v rs →
    (∀ x s, t.mem x s → P x s ∧ s < 2 ^ 64) → Ok P nb (scan nb t v rs).1 (scan nb t v rs).2 ∧ (scan nb t v rs).2 ≤ rs := by
  intro t
  induction t with
  | leaf => intro v rs h _; exact ⟨h, le_refl _⟩
  | node s0 p q l r ihl ihr =>
    intro v rs h hP
    obtain ⟨h1, h2⟩ := hP p s0 (.inl ⟨rfl, by simp⟩)
    obtain ⟨k1, k2, -⟩ := h.look hn h1 h2
    simp only [scan]
    split
    · obtain ⟨a, b⟩ := ihr k1 (fun x s hm => hP x s (.inr (.inr hm)))
      exact ⟨a, b.trans k2⟩
    · obtain ⟨a, b⟩ := ihl k1 (fun x s hm => hP x s (.inr (.inl hm)))
      exact ⟨a, b.trans k2⟩

theorem descend_ok {P : Nat → Nat → Prop} {nb : Nat} (hn : nb < 2 ^ 64) : ∀ {t : Tree} {b : Nat} {v : Cand} {rs : Nat} {rst : Tree}, Ok P nb v rs →
    (∀ x s, t.mem x s → P x s ∧ s < 2 ^ 64) → (∀ x s, rst.mem x s → P x s ∧ s < 2 ^ 64) →
    Ok P nb (descend nb b t v rs rst).2.1 (descend nb b t v rs rst).2.2 ∧
    (∀ x s, (descend nb b t v rs rst).1.mem x s → P x s ∧ s < 2 ^ 64) ∧ (descend nb b t v rs rst).2.2 ≤ rs := by
  intro t
  induction t with
  | leaf => intro b v rs rst h _ hr; exact ⟨h, hr, le_refl _⟩
  | node s0 p q l r ihl ihr =>
    intro b v rs rst h hP hr
    obtain ⟨h1, h2⟩ := hP p s0 (.inl ⟨rfl, by simp⟩)
    obtain ⟨k1, k2, -⟩ := h.look hn h1 h2
    simp only [descend]
    split
    · rename_i hz
      refine ⟨⟨h1, ?_, h2, ?_⟩, hP, Nat.zero_le _⟩
      · by_contra hc
        have := sub64_lt hn (Nat.lt_of_not_le hc)
        omega
      · show 0 = s0 - nb
        by_cases hb : nb ≤ s0
        · have := sub64_ge h2 hb; omega
        · have := sub64_lt hn (Nat.lt_of_not_le hb); omega
    · split
      · obtain ⟨a, b', c⟩ := ihr (b := b - 1) (rst := rst) k1 (fun x s hm => hP x s (.inr (.inr hm))) hr
        exact ⟨a, b', c.trans k2⟩
      · obtain ⟨a, b', c⟩ := ihl (b := b - 1) (rst := if r.isLeaf then rst else r) k1 (fun x s hm => hP x s (.inr (.inl hm)))
          (by
            intro x s hm
            split at hm
            · exact hr x s hm
            · exact hP x s (.inr (.inr hm)))
        exact ⟨a, b', c.trans k2⟩

/-- all sizes in the trie agree above bit `b` -/
def Tree.Low (b pre : Nat) (t : Tree) : Prop := ∀ x s, t.mem x s → s / 2 ^ b = pre

theorem div_half (s b : Nat) (hb : 0 < b) : s / 2 ^ (b - 1) = 2 * (s / 2 ^ b) + (if dir s b then 1 else 0) := by
  obtain ⟨k, rfl⟩ : ∃ k, b = k + 1 := ⟨b - 1, by omega⟩
  simp only [dir, Nat.add_eq_zero_iff, one_ne_zero, and_false, if_false, Nat.add_sub_cancel]
  have h1 : s / 2 ^ (k + 1) = s / 2 ^ k / 2 := by rw [Nat.pow_succ, Nat.div_div_eq_div_mul]
  rw [h1, Nat.testBit_eq_decide_div_mod_eq]
  split <;> rename_i h <;> simp at h <;> omega

/-- children of a node: no children left when no bits are left -/
theorem Tree.Low.children {b pre s p : Nat} {q : List Nat} {l r : Tree} (hl : (Tree.node s p q l r).Low b pre) (hp : (Tree.node s p q l r).Path b) :
    (b = 0 → l = .leaf ∧ r = .leaf) ∧ (0 < b → l.Low (b - 1) (2 * pre) ∧ r.Low (b - 1) (2 * pre + 1)) := by
  obtain ⟨h1, h2, h3, h4, h5⟩ := hp
  have hs := hl p s (.inl ⟨rfl, by simp⟩)
  constructor
  · rintro rfl
    simp only [pow_zero, Nat.div_one] at hs
    constructor
    · rw [Tree.leaf_iff]
      intro x s' hm
      have := hl x s' (.inr (.inl hm))
      simp only [pow_zero, Nat.div_one] at this
      exact (h2 x s' hm).2 (by omega)
    · rw [Tree.leaf_iff]
      intro x s' hm
      have := hl x s' (.inr (.inr hm))
      simp only [pow_zero, Nat.div_one] at this
      exact (h3 x s' hm).2 (by omega)
  · intro hb
    constructor
    · intro x s' hm
      rw [div_half s' b hb, (h2 x s' hm).1, hl x s' (.inr (.inl hm))]; rfl
    · intro x s' hm
      rw [div_half s' b hb, (h3 x s' hm).1, hl x s' (.inr (.inr hm))]; rfl

theorem lt_of_div {a c k n m : Nat} (h1 : a / k = n) (h2 : c / k = m) (h : n < m) : a < c := by
  by_contra hc
  have := Nat.div_le_div_right (c := k) (Nat.le_of_not_lt hc)
  omega

/-- left subtree: smaller sizes -/
theorem Tree.Low.lt {b pre s p : Nat} {q : List Nat} {l r : Tree} (hl : (Tree.node s p q l r).Low b pre) (hp : (Tree.node s p q l r).Path b)
    {x y a c : Nat} (hx : l.mem x a) (hy : r.mem y c) : a < c := by
  obtain ⟨h0, h1⟩ := hl.children hp
  by_cases hb : b = 0
  · rw [(h0 hb).1] at hx; exact hx.elim
  · obtain ⟨k1, k2⟩ := h1 (by omega)
    exact lt_of_div (k1 x a hx) (k2 y c hy) (by omega)

/-- the leftmost path of a trie whose sizes are all large enough leads to the smallest one -/
theorem scan_best {P : Nat → Nat → Prop} {nb : Nat} (hn : nb < 2 ^ 64) : ∀ {t : Tree} {b pre : Nat} {v : Cand} {rs : Nat}, Ok P nb v rs →
    (∀ x s, t.mem x s → P x s ∧ s < 2 ^ 64) → t.Path b → t.Low b pre → (∀ x s, t.mem x s → nb ≤ s) →
    ∀ x s, t.mem x s → (scan nb t v rs).2 ≤ s - nb := by
  intro t
  induction t with
  | leaf => intro b pre v rs _ _ _ _ _ x s h; exact h.elim
  | node s0 p q l r ihl ihr =>
    intro b pre v rs h hP hp hl hge x s hm
    obtain ⟨h1, h2⟩ := hP p s0 (.inl ⟨rfl, by simp⟩)
    obtain ⟨k1, k2, k3⟩ := h.look hn h1 h2
    have k3 := k3 (hge p s0 (.inl ⟨rfl, by simp⟩))
    have hPl : ∀ x s, l.mem x s → P x s ∧ s < 2 ^ 64 := fun x s hm => hP x s (.inr (.inl hm))
    have hPr : ∀ x s, r.mem x s → P x s ∧ s < 2 ^ 64 := fun x s hm => hP x s (.inr (.inr hm))
    have hlow := hl.children hp
    have hlt := fun {x y a c : Nat} => hl.lt hp (x := x) (y := y) (a := a) (c := c)
    obtain ⟨-, -, -, p4, p5⟩ := hp
    have hbl : ∀ {t : Tree} {y c : Nat}, (t = l ∨ t = r) → t.mem y c → 0 < b := by
      intro t y c ht hy
      by_contra hc
      have := hlow.1 (by omega)
      rcases ht with rfl | rfl
      · rw [this.1] at hy; exact hy.elim
      · rw [this.2] at hy; exact hy.elim
    simp only [scan]
    split
    · rename_i hleaf
      rw [Tree.isLeaf_iff] at hleaf
      obtain ⟨-, kb⟩ := scan_ok hn k1 hPr
      rcases hm with ⟨rfl, -⟩ | hm | hm
      · exact kb.trans k3
      · rw [hleaf] at hm; exact hm.elim
      · have hb := hbl (.inr rfl) hm
        exact ihr k1 hPr p5 (hlow.2 hb).2 (fun x s hm => hge x s (.inr (.inr hm))) x s hm
    · rename_i hleaf
      obtain ⟨-, kb⟩ := scan_ok hn k1 hPl
      rcases hm with ⟨rfl, -⟩ | hm | hm
      · exact kb.trans k3
      · have hb := hbl (.inl rfl) hm
        exact ihl k1 hPl p4 (hlow.2 hb).1 (fun x s hm => hge x s (.inr (.inl hm))) x s hm
      · obtain ⟨y, c, hy⟩ := Tree.nonleaf (t := l) (by simpa using hleaf)
        have hb := hbl (.inl rfl) hy
        have := ihl k1 hPl p4 (hlow.2 hb).1 (fun x s hm => hge x s (.inr (.inl hm))) y c hy
        have := hlt hy hm
        omega

/-- a trie (or part of one) in which all sizes are at least `nb` -/
def Tree.Above (nb : Nat) (t : Tree) : Prop := (∃ b pre, t.Path b ∧ t.Low b pre) ∧ ∀ x s, t.mem x s → nb ≤ s

/-- the first loop of `tmalloc_large`: every large enough chunk of the trie is no better than the candidate, or than some chunk in
the part to be searched next -/
theorem descend_best {P : Nat → Nat → Prop} {nb : Nat} (hn : nb < 2 ^ 64) : ∀ {t : Tree} {b : Nat} {v : Cand} {rs : Nat} {rst : Tree}, Ok P nb v rs →
    (∀ x s, t.mem x s → P x s ∧ s < 2 ^ 64) → (∀ x s, rst.mem x s → P x s ∧ s < 2 ^ 64) → t.Path b → t.Low b (nb / 2 ^ b) →
    rst.Above nb → (∀ x s y s', t.mem x s → rst.mem y s' → s < s') →
    ((descend nb b t v rs rst).2.2 = 0 ∨ (descend nb b t v rs rst).1.Above nb) ∧
    ∀ x s, t.mem x s ∨ rst.mem x s → nb ≤ s → (descend nb b t v rs rst).2.2 ≤ s - nb ∨
      ∃ y s', (descend nb b t v rs rst).1.mem y s' ∧ s' ≤ s := by
  intro t
  induction t with
  | leaf =>
    intro b v rs rst _ _ _ _ _ ha _
    refine ⟨.inr ha, fun x s hm _ => .inr ⟨x, s, ?_, le_refl _⟩⟩
    rcases hm with hm | hm
    · exact hm.elim
    · exact hm
  | node s0 p q l r ihl ihr =>
    intro b v rs rst h hP hr hp hl ha hlt'
    obtain ⟨h1, h2⟩ := hP p s0 (.inl ⟨rfl, by simp⟩)
    obtain ⟨k1, k2, k3⟩ := h.look hn h1 h2
    have hPl : ∀ x s, l.mem x s → P x s ∧ s < 2 ^ 64 := fun x s hm => hP x s (.inr (.inl hm))
    have hPr : ∀ x s, r.mem x s → P x s ∧ s < 2 ^ 64 := fun x s hm => hP x s (.inr (.inr hm))
    have hlow := hl.children hp
    have hlr := fun {x y a c : Nat} => hl.lt hp (x := x) (y := y) (a := a) (c := c)
    obtain ⟨-, p2, p3, p4, p5⟩ := hp
    simp only [descend]
    by_cases hz : sub64 s0 nb < rs ∧ sub64 s0 nb = 0
    · rw [if_pos hz]
      exact ⟨.inl rfl, fun x s _ _ => .inl (Nat.zero_le _)⟩
    · rw [if_neg hz]
      by_cases hb : b = 0
      · -- no bits left: no children
        obtain ⟨rfl, rfl⟩ := hlow.1 hb
        subst hb
        simp only [dir, if_true, Bool.false_eq_true, if_false, descend, Tree.isLeaf]
        refine ⟨.inr ha, fun x s hm hge => ?_⟩
        rcases hm with (⟨rfl, -⟩ | hm | hm) | hm
        · exact .inl (k3 hge)
        · exact hm.elim
        · exact hm.elim
        · exact .inr ⟨x, s, hm, le_refl _⟩
      · obtain ⟨ll, lr⟩ := hlow.2 (by omega)
        have hnb := div_half nb b (by omega)
        cases hd : dir nb b with
        | true =>
          rw [hd] at hnb
          simp only [if_true] at hnb ⊢
          obtain ⟨a1, a2⟩ := ihr (b := b - 1) (rst := rst) k1 hPr hr p5 (by rw [hnb]; exact lr) ha
            (fun x s y s' hx hy => hlt' x s y s' (.inr (.inr hx)) hy)
          obtain ⟨-, -, mono⟩ := descend_ok (b := b - 1) (rst := rst) hn k1 hPr hr
          refine ⟨a1, fun x s hm hge => ?_⟩
          rcases hm with (⟨rfl, -⟩ | hm | hm) | hm
          · exact .inl (mono.trans (k3 hge))
          · have := lt_of_div (ll x s hm) hnb (by omega)
            omega
          · exact a2 x s (.inl hm) hge
          · exact a2 x s (.inr hm) hge
        | false =>
          rw [hd] at hnb
          simp only [Bool.false_eq_true, if_false] at hnb ⊢
          have hra : r.Above nb := by
            refine ⟨⟨b - 1, _, p5, lr⟩, fun x s hm => ?_⟩
            have := lt_of_div hnb (lr x s hm) (by omega)
            omega
          have hr' : ∀ x s, (if r.isLeaf then rst else r).mem x s → P x s ∧ s < 2 ^ 64 := by
            intro x s hm
            split at hm
            · exact hr x s hm
            · exact hPr x s hm
          have ha' : (if r.isLeaf then rst else r).Above nb := by split; exacts [ha, hra]
          obtain ⟨a1, a2⟩ := ihl (b := b - 1) (rst := if r.isLeaf then rst else r) k1 hPl hr' p4 (by rw [hnb]; exact ll) ha'
            (fun x s y s' hx hy => by
              split at hy
              · exact hlt' x s y s' (.inr (.inl hx)) hy
              · exact hlr hx hy)
          obtain ⟨-, -, mono⟩ := descend_ok (b := b - 1) (rst := if r.isLeaf then rst else r) hn k1 hPl hr'
          refine ⟨a1, fun x s hm hge => ?_⟩
          rcases hm with (⟨rfl, -⟩ | hm | hm) | hm
          · exact .inl (mono.trans (k3 hge))
          · exact a2 x s (.inl hm) hge
          · have hrl : r.isLeaf = false := by
              cases hrl : r.isLeaf with
              | false => rfl
              | true => rw [Tree.isLeaf_iff] at hrl; rw [hrl] at hm; exact hm.elim
            exact a2 x s (.inr (by rw [hrl]; exact hm)) hge
          · cases hrl : r.isLeaf with
            | true => rw [hrl] at a2; exact a2 x s (.inr (by simpa using hm)) hge
            | false =>
              obtain ⟨y, c, hy⟩ := Tree.nonleaf hrl
              have hc := hlt' y c x s (.inr (.inr hy)) hm
              rw [hrl] at a2
              rcases a2 y c (.inr (by simpa using hy)) (hra.2 y c hy) with h | ⟨z, e, hz, he⟩
              · exact .inl (by rw [← hrl] at h; rw [← hrl]; omega)
              · exact .inr ⟨z, e, by rw [← hrl] at hz; rw [← hrl]; exact hz, by omega⟩

end Verif.Dl
