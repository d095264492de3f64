import Verif.Lnk.Trie
/-!
# Searching a trie in memory
-/
namespace Verif.Lnk
open Dl (Tree dir keyBits sub64 Cand)
open Tag (Mem ld st ld_st_same ld_st_ne ld_congr st_of_ne chunksize)

/-- the chunk found so far as an address -/
def enc (A : Nat) : Cand → Nat
  | none => 0
  | some (p, _) => A + p

section
variable {A : Nat} {m : Mem} {i : Nat}

/-- `t` is a part of a trie in memory -/
structure Part (A : Nat) (m : Mem) (t : Tree) : Prop where
  rep : ∃ i par, TRep A m i par t
  size : ∀ y s, t.mem y s → chunksize m (A + y) = s
  good : ∃ b, Good A t b

theorem Part.leaf : Part A m .leaf := ⟨⟨0, 0, trivial⟩, fun _ _ h => h.elim, ⟨0, trivial, fun _ _ _ h => h.elim, fun _ _ _ _ h => h.elim, fun _ _ h => h.elim⟩⟩

theorem Part.left {s p : Nat} {q : List Nat} {l r : Tree} (h : Part A m (.node s p q l r)) : Part A m l := by
  obtain ⟨⟨i, par, h1⟩, h2, b, g⟩ := h
  exact ⟨⟨i, _, h1.2.1⟩, fun y s hy => h2 y s (.inr (.inl hy)), _, g.left⟩

theorem Part.right {s p : Nat} {q : List Nat} {l r : Tree} (h : Part A m (.node s p q l r)) : Part A m r := by
  obtain ⟨⟨i, par, h1⟩, h2, b, g⟩ := h
  exact ⟨⟨i, _, h1.2.2⟩, fun y s hy => h2 y s (.inr (.inr hy)), _, g.right⟩

theorem Part.child {s p : Nat} {q : List Nat} {l r : Tree} (h : Part A m (.node s p q l r)) (d : Bool) : ld m (childAt (A + p) d) = ptr A (kid l r d) := by
  obtain ⟨⟨i, par, h1⟩, h2, b, g⟩ := h
  exact h1.1.child d

theorem Part.height {t : Tree} (h : Part A m t) : height t < 2 ^ 64 := by
  obtain ⟨b, g⟩ := h.good
  exact g.height

theorem Part.leftmost (h0 : 0 < A) {s p : Nat} {q : List Nat} {l r : Tree} (h : Part A m (.node s p q l r)) :
    leftmost m (A + p) = ptr A (if l.isLeaf then r else l) := by
  unfold Lnk.leftmost
  rw [h.child, h.child]
  cases l with
  | leaf => simp [kid, ptr, Tree.isLeaf]
  | node s' p' q' l' r' =>
    have : ptr A (kid (.node s' p' q' l' r') r false) ≠ 0 := fun e => by cases (ptr_zero h0).1 e
    rw [if_pos this]
    simp [kid, Tree.isLeaf]

theorem scan_spec (h0 : 0 < A) {nb : Nat} : ∀ (t : Tree) (n rs : Nat) (v : Cand), Part A m t → height t < n →
    scan m nb n (ptr A t) (enc A v) rs = some (enc A (Dl.scan nb t v rs).1, (Dl.scan nb t v rs).2) := by
  intro t
  induction t with
  | leaf =>
    intro n rs v _ hn
    cases n with
    | zero => omega
    | succ n => simp [scan, ptr, Dl.scan]
  | node s p q l r ihl ihr =>
    intro n rs v h hn
    cases n with
    | zero => omega
    | succ n =>
      simp only [height] at hn
      have hsz := h.size p s (.inl ⟨rfl, by simp⟩)
      have hne : ¬(ptr A (Tree.node s p q l r) = 0) := fun e => by cases (ptr_zero h0).1 e
      rw [show ptr A (Tree.node s p q l r) = A + p from rfl] at hne ⊢
      simp only [scan]
      rw [if_neg hne, hsz, h.leftmost h0]
      have hv : (if sub64 s nb < rs then A + p else enc A v) = enc A (if sub64 s nb < rs then some (p, s) else v) := by split <;> rfl
      rw [hv]
      simp only [Dl.scan]
      cases hl : l.isLeaf with
      | true =>
        simp only [if_pos]
        exact ihr n _ _ h.right (by omega)
      | false =>
        simp only [Bool.false_eq_true, if_false]
        exact ihl n _ _ h.left (by omega)

theorem descend_spec (h0 : 0 < A) {nb : Nat} : ∀ (t : Tree) (b n rs : Nat) (v : Cand) (rst : Tree), Part A m t → t ≠ .leaf → b ≤ 64 → height t ≤ n → Part A m rst →
    descend m nb n (ptr A t) (key nb b) (enc A v) rs (ptr A rst) =
      some (ptr A (Dl.descend nb b t v rs rst).1, enc A (Dl.descend nb b t v rs rst).2.1, (Dl.descend nb b t v rs rst).2.2) ∧
    Part A m (Dl.descend nb b t v rs rst).1 := by
  intro t
  induction t with
  | leaf => intro b n rs v rst _ h; exact absurd rfl h
  | node s p q l r ihl ihr =>
    intro b n rs v rst h _ hb hn hrst
    cases n with
    | zero => simp [height] at hn
    | succ n =>
      simp only [height] at hn
      have hsz := h.size p s (.inl ⟨rfl, by simp⟩)
      rw [show ptr A (Tree.node s p q l r) = A + p from rfl]
      simp only [descend, Dl.descend]
      rw [hsz]
      by_cases hz : sub64 s nb < rs ∧ sub64 s nb = 0
      · simp only [if_pos hz]
        exact ⟨rfl, h⟩
      · rw [if_neg hz, if_neg hz]
        have hv : (if sub64 s nb < rs then A + p else enc A v) = enc A (if sub64 s nb < rs then some (p, s) else v) := by split <;> rfl
        rw [hv, h.child, h.child, key_msb hb, key_shift hb]
        have step : ∀ (u rst' : Tree), Part A m u → Part A m rst' →
            (u ≠ .leaf → descend m nb n (ptr A u) (key nb (b - 1)) (enc A (if sub64 s nb < rs then some (p, s) else v)) (if sub64 s nb < rs then sub64 s nb else rs) (ptr A rst') =
              some (ptr A (Dl.descend nb (b - 1) u (if sub64 s nb < rs then some (p, s) else v) (if sub64 s nb < rs then sub64 s nb else rs) rst').1,
                enc A (Dl.descend nb (b - 1) u (if sub64 s nb < rs then some (p, s) else v) (if sub64 s nb < rs then sub64 s nb else rs) rst').2.1,
                (Dl.descend nb (b - 1) u (if sub64 s nb < rs then some (p, s) else v) (if sub64 s nb < rs then sub64 s nb else rs) rst').2.2) ∧
              Part A m (Dl.descend nb (b - 1) u (if sub64 s nb < rs then some (p, s) else v) (if sub64 s nb < rs then sub64 s nb else rs) rst').1) →
            (if ptr A u = 0 then some (ptr A rst', enc A (if sub64 s nb < rs then some (p, s) else v), if sub64 s nb < rs then sub64 s nb else rs)
              else descend m nb n (ptr A u) (key nb (b - 1)) (enc A (if sub64 s nb < rs then some (p, s) else v)) (if sub64 s nb < rs then sub64 s nb else rs) (ptr A rst')) =
              some (ptr A (Dl.descend nb (b - 1) u (if sub64 s nb < rs then some (p, s) else v) (if sub64 s nb < rs then sub64 s nb else rs) rst').1,
                enc A (Dl.descend nb (b - 1) u (if sub64 s nb < rs then some (p, s) else v) (if sub64 s nb < rs then sub64 s nb else rs) rst').2.1,
                (Dl.descend nb (b - 1) u (if sub64 s nb < rs then some (p, s) else v) (if sub64 s nb < rs then sub64 s nb else rs) rst').2.2) ∧
              Part A m (Dl.descend nb (b - 1) u (if sub64 s nb < rs then some (p, s) else v) (if sub64 s nb < rs then sub64 s nb else rs) rst').1 := by
          intro u rst' hu hr hcall
          by_cases hl : u = .leaf
          · subst hl
            rw [if_pos (show ptr A .leaf = 0 from rfl)]
            exact ⟨rfl, hr⟩
          · rw [if_neg (fun e => hl ((ptr_zero h0).1 e))]
            exact hcall hl
        cases hd : dir nb b with
        | true =>
          rw [if_pos rfl, show kid l r true = r from rfl]
          have : (if ptr A r ≠ 0 ∧ ptr A r ≠ ptr A r then ptr A r else ptr A rst) = ptr A rst := if_neg (fun e => e.2 rfl)
          rw [this]
          exact step r rst h.right hrst (fun hr => ihr (b - 1) n _ _ _ h.right hr (by omega) (by omega) hrst)
        | false =>
          rw [if_neg (show ¬(false = true) by simp), show kid l r true = r from rfl, show kid l r false = l from rfl]
          have : (if ptr A r ≠ 0 ∧ ptr A r ≠ ptr A l then ptr A r else ptr A rst) = ptr A (if r.isLeaf then rst else r) := by
            cases r with
            | leaf => simp [ptr, Tree.isLeaf]
            | node s' p' q' l' r' =>
              have h1 : ptr A (.node s' p' q' l' r') ≠ 0 := fun e => by cases (ptr_zero h0).1 e
              have h2 : ptr A (.node s' p' q' l' r') ≠ ptr A l := by
                cases l with
                | leaf => exact h1
                | node s2 p2 q2 l2 r2 =>
                  obtain ⟨b', g⟩ := h.good
                  have := g.sides (x := p2) (y := p') (s' := s2) (s'' := s') (.inl ⟨rfl, by simp⟩) (.inl ⟨rfl, by simp⟩)
                  simp only [ptr]
                  omega
              rw [if_pos ⟨h1, h2⟩]
              simp [Tree.isLeaf]
          rw [this]
          have hrst' : Part A m (if r.isLeaf then rst else r) := by
            split
            · exact hrst
            · exact h.right
          exact step l _ h.left hrst' (fun hl => ihl (b - 1) n _ _ _ h.left hl (by omega) (by omega) hrst')

end

end Verif.Lnk
