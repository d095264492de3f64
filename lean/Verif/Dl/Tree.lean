import Verif.Dl.Bits
/-!
# Tries: insertion and removal
-/
namespace Verif.Dl

/-- the chunk at `x`, of size `s`, is in the trie -/
def Tree.mem (x s : Nat) : Tree → Prop
  | .leaf => False
  | .node s' p q l r => (s = s' ∧ x ∈ p :: q) ∨ l.mem x s ∨ r.mem x s

/-- shape of a trie: one node per size, every node on the path given by the bits of its size -/
def Tree.Path : Nat → Tree → Prop
  | _, .leaf => True
  | b, .node s p q l r => (p :: q).Nodup ∧ (∀ x s', l.mem x s' → dir s' b = false ∧ s' ≠ s) ∧
      (∀ x s', r.mem x s' → dir s' b = true ∧ s' ≠ s) ∧ l.Path (b - 1) ∧ r.Path (b - 1)

/-- a chunk has one size -/
def Tree.Uniq (t : Tree) : Prop := ∀ x s s', t.mem x s → t.mem x s' → s = s'

theorem Tree.isLeaf_iff {t : Tree} : t.isLeaf = true ↔ t = .leaf := by cases t <;> simp [Tree.isLeaf]

theorem Tree.leaf_iff {t : Tree} : t = .leaf ↔ ∀ x s, ¬t.mem x s := by
  cases t with
  | leaf => simp [Tree.mem]
  | node s p q l r =>
    simp only [reduceCtorEq, false_iff, not_forall, not_not]
    exact ⟨p, s, .inl ⟨rfl, by simp⟩⟩

theorem Tree.nonleaf {t : Tree} (h : t.isLeaf = false) : ∃ x s, t.mem x s := by
  by_contra hc
  simp only [not_exists] at hc
  rw [Tree.leaf_iff.2 hc] at h
  cases h

theorem Tree.insert_mem {x s : Nat} : ∀ {t : Tree} {b : Nat} (y s' : Nat), (t.insert x s b).mem y s' ↔ t.mem y s' ∨ (y = x ∧ s' = s) := by
  intro t
  induction t with
  | leaf => intro b y s'; simp [Tree.insert, Tree.mem, and_comm]
  | node s0 p q l r ihl ihr =>
    intro b y s'
    simp only [Tree.insert]
    split
    · split
      · simp only [Tree.mem, ihr]; tauto
      · simp only [Tree.mem, ihl]; tauto
    · rename_i h
      have h : s0 = s := by simpa using h
      subst h
      simp only [Tree.mem, List.mem_cons]
      tauto

theorem Tree.insert_path {x s : Nat} : ∀ {t : Tree} {b : Nat}, t.Path b → (∀ s', ¬t.mem x s') → (t.insert x s b).Path b := by
  intro t
  induction t with
  | leaf => intro b _ _; simp [Tree.insert, Tree.Path, Tree.mem]
  | node s0 p q l r ihl ihr =>
    intro b hp hx
    obtain ⟨h1, h2, h3, h4, h5⟩ := hp
    simp only [Tree.mem, not_or] at hx
    simp only [Tree.insert]
    split
    · rename_i hne
      split
      · rename_i hd
        refine ⟨h1, h2, ?_, h4, ihr h5 (fun s' => (hx s').2.2)⟩
        intro y s' hm
        rcases (Tree.insert_mem y s').1 hm with hm | ⟨-, rfl⟩
        · exact h3 y s' hm
        · exact ⟨hd, fun h => hne h.symm⟩
      · rename_i hd
        refine ⟨h1, ?_, h3, ihl h4 (fun s' => (hx s').2.1), h5⟩
        intro y s' hm
        rcases (Tree.insert_mem y s').1 hm with hm | ⟨-, rfl⟩
        · exact h2 y s' hm
        · exact ⟨by simpa using hd, fun h => hne h.symm⟩
    · refine ⟨?_, h2, h3, h4, h5⟩
      have hn : x ∉ p :: q := fun h => (hx s0).1 ⟨rfl, h⟩
      simp only [List.mem_cons, not_or] at hn
      rw [List.nodup_cons] at h1
      rw [List.nodup_cons, List.nodup_cons]
      refine ⟨?_, hn.2, h1.2⟩
      simp only [List.mem_cons, not_or]
      exact ⟨fun h => hn.1 h.symm, h1.1⟩

theorem Tree.popLeaf_none {t : Tree} : t.popLeaf = none ↔ t = .leaf := by
  cases t with
  | leaf => simp [Tree.popLeaf]
  | node s p q l r =>
    simp only [Tree.popLeaf, reduceCtorEq, iff_false]
    cases r.popLeaf with
    | some x => simp
    | none => cases l.popLeaf <;> simp

theorem Tree.popLeaf_mem : ∀ {t t' : Tree} {s p : Nat} {q : List Nat}, t.popLeaf = some ((s, p, q), t') → ∀ y s',
    (t.mem y s' ↔ (s' = s ∧ y ∈ p :: q) ∨ t'.mem y s') := by
  intro t
  induction t with
  | leaf => intro t' s p q h; simp [Tree.popLeaf] at h
  | node s0 p0 q0 l r ihl ihr =>
    intro t' s p q h y s'
    simp only [Tree.popLeaf] at h
    cases hr : r.popLeaf with
    | some x =>
      obtain ⟨⟨s1, p1, q1⟩, r'⟩ := x
      rw [hr] at h
      simp only [Option.some.injEq, Prod.mk.injEq] at h
      obtain ⟨⟨rfl, rfl, rfl⟩, rfl⟩ := h
      simp only [Tree.mem, ihr hr y s']
      tauto
    | none =>
      rw [hr] at h
      have hrl := Tree.popLeaf_none.1 hr
      cases hl : l.popLeaf with
      | some x =>
        obtain ⟨⟨s1, p1, q1⟩, l'⟩ := x
        rw [hl] at h
        simp only [Option.some.injEq, Prod.mk.injEq] at h
        obtain ⟨⟨rfl, rfl, rfl⟩, rfl⟩ := h
        simp only [Tree.mem, ihl hl y s']
        tauto
      | none =>
        rw [hl] at h
        have hll := Tree.popLeaf_none.1 hl
        simp only [Option.some.injEq, Prod.mk.injEq] at h
        obtain ⟨⟨rfl, rfl, rfl⟩, rfl⟩ := h
        subst hrl; subst hll
        simp [Tree.mem]

theorem Tree.popLeaf_path : ∀ {t t' : Tree} {b s p : Nat} {q : List Nat}, t.Path b → t.popLeaf = some ((s, p, q), t') →
    t'.Path b ∧ (p :: q).Nodup ∧ ∀ y, ¬t'.mem y s := by
  intro t
  induction t with
  | leaf => intro t' b s p q _ h; simp [Tree.popLeaf] at h
  | node s0 p0 q0 l r ihl ihr =>
    intro t' b s p q hp h
    obtain ⟨h1, h2, h3, h4, h5⟩ := hp
    simp only [Tree.popLeaf] at h
    cases hr : r.popLeaf with
    | some x =>
      obtain ⟨⟨s1, p1, q1⟩, r'⟩ := x
      rw [hr] at h
      simp only [Option.some.injEq, Prod.mk.injEq] at h
      obtain ⟨⟨rfl, rfl, rfl⟩, rfl⟩ := h
      obtain ⟨a, b', c⟩ := ihr h5 hr
      have hm := Tree.popLeaf_mem hr
      refine ⟨⟨h1, h2, fun y s' hy => h3 y s' ((hm y s').2 (.inr hy)), h4, a⟩, b', fun y hy => ?_⟩
      have hs := h3 p1 s1 ((hm p1 s1).2 (.inl ⟨rfl, by simp⟩))
      rcases hy with ⟨rfl, -⟩ | hy | hy
      · exact hs.2 rfl
      · have := (h2 y s1 hy).1
        rw [hs.1] at this; cases this
      · exact c y hy
    | none =>
      rw [hr] at h
      have hrl := Tree.popLeaf_none.1 hr
      cases hl : l.popLeaf with
      | some x =>
        obtain ⟨⟨s1, p1, q1⟩, l'⟩ := x
        rw [hl] at h
        simp only [Option.some.injEq, Prod.mk.injEq] at h
        obtain ⟨⟨rfl, rfl, rfl⟩, rfl⟩ := h
        obtain ⟨a, b', c⟩ := ihl h4 hl
        have hm := Tree.popLeaf_mem hl
        refine ⟨⟨h1, fun y s' hy => h2 y s' ((hm y s').2 (.inr hy)), h3, a, h5⟩, b', fun y hy => ?_⟩
        have hs := h2 p1 s1 ((hm p1 s1).2 (.inl ⟨rfl, by simp⟩))
        rcases hy with ⟨rfl, -⟩ | hy | hy
        · exact hs.2 rfl
        · exact c y hy
        · have := (h3 y s1 hy).1
          rw [hs.1] at this; cases this
      | none =>
        rw [hl] at h
        simp only [Option.some.injEq, Prod.mk.injEq] at h
        obtain ⟨⟨rfl, rfl, rfl⟩, rfl⟩ := h
        exact ⟨trivial, h1, fun y hy => hy⟩

theorem Tree.dropNode_mem {l r : Tree} (y s : Nat) : (Tree.dropNode l r).mem y s ↔ l.mem y s ∨ r.mem y s := by
  unfold Tree.dropNode
  cases hr : r.popLeaf with
  | some x =>
    obtain ⟨⟨s1, p1, q1⟩, r'⟩ := x
    simp only [Tree.mem, Tree.popLeaf_mem hr y s]
    tauto
  | none =>
    have hrl := Tree.popLeaf_none.1 hr
    subst hrl
    cases hl : l.popLeaf with
    | some x =>
      obtain ⟨⟨s1, p1, q1⟩, l'⟩ := x
      simp only [Tree.mem, Tree.popLeaf_mem hl y s]
      tauto
    | none =>
      have hll := Tree.popLeaf_none.1 hl
      subst hll
      simp [Tree.mem]

theorem Tree.dropNode_path {l r : Tree} {b : Nat} (hl' : ∀ x s', l.mem x s' → dir s' b = false)
    (hr' : ∀ x s', r.mem x s' → dir s' b = true) (h4 : l.Path (b - 1)) (h5 : r.Path (b - 1)) : (Tree.dropNode l r).Path b := by
  unfold Tree.dropNode
  cases hr : r.popLeaf with
  | some x =>
    obtain ⟨⟨s1, p1, q1⟩, r'⟩ := x
    obtain ⟨a, b', c⟩ := Tree.popLeaf_path h5 hr
    have hm := Tree.popLeaf_mem hr
    have hs := hr' p1 s1 ((hm p1 s1).2 (.inl ⟨rfl, by simp⟩))
    refine ⟨b', fun y s' hy => ⟨hl' y s' hy, ?_⟩, fun y s' hy => ⟨hr' y s' ((hm y s').2 (.inr hy)), ?_⟩, h4, a⟩
    · rintro rfl
      have := hl' y _ hy
      rw [hs] at this; cases this
    · rintro rfl
      exact c y hy
  | none =>
    cases hl : l.popLeaf with
    | some x =>
      obtain ⟨⟨s1, p1, q1⟩, l'⟩ := x
      obtain ⟨a, b', c⟩ := Tree.popLeaf_path h4 hl
      have hm := Tree.popLeaf_mem hl
      refine ⟨b', fun y s' hy => ⟨hl' y s' ((hm y s').2 (.inr hy)), ?_⟩, fun y s' hy => hy.elim, a, trivial⟩
      rintro rfl
      exact c y hy
    | none => trivial

theorem or3_and {A A' B B' C C' N : Prop} (hA : A' ↔ A ∧ N) (hB : B' ↔ B ∧ N) (hC : C' ↔ C ∧ N) :
    (A' ∨ B' ∨ C') ↔ (A ∨ B ∨ C) ∧ N := by
  rw [hA, hB, hC, or_and_right, or_and_right]

theorem iff_and_of {B N : Prop} (h : B → N) : B ↔ B ∧ N := ⟨fun b => ⟨b, h b⟩, And.left⟩

theorem Tree.unlink_mem {x : Nat} : ∀ {t : Tree} {b : Nat}, t.Path b → t.Uniq → ∀ y s, ((t.unlink x).mem y s ↔ t.mem y s ∧ y ≠ x) := by
  intro t
  induction t with
  | leaf => intro b _ _ y s; simp [Tree.unlink, Tree.mem]
  | node s0 p q l r ihl ihr =>
    intro b hp hu y s
    obtain ⟨h1, h2, h3, h4, h5⟩ := hp
    have hx : x ∈ p :: q → ∀ s', ¬l.mem x s' ∧ ¬r.mem x s' := by
      intro hm s'
      constructor
      · intro h
        exact (h2 x s' h).2 (hu x s' s0 (.inr (.inl h)) (.inl ⟨rfl, hm⟩))
      · intro h
        exact (h3 x s' h).2 (hu x s' s0 (.inr (.inr h)) (.inl ⟨rfl, hm⟩))
    have hul : l.Uniq := fun z a b ha hb => hu z a b (.inr (.inl ha)) (.inr (.inl hb))
    have hur : r.Uniq := fun z a b ha hb => hu z a b (.inr (.inr ha)) (.inr (.inr hb))
    have hlr : x ∈ p :: q → ∀ s', (l.mem y s' → y ≠ x) ∧ (r.mem y s' → y ≠ x) := fun hm s' =>
      ⟨fun h e => (hx hm s').1 (e ▸ h), fun h e => (hx hm s').2 (e ▸ h)⟩
    rw [List.nodup_cons] at h1
    simp only [Tree.unlink]
    by_cases hxp : x = p
    · rw [if_pos hxp]
      subst hxp
      have hlr2 := hlr (by simp) s
      cases hq : q.getLast? with
      | some z =>
        have hqe : q = q.dropLast ++ [z] := by
          rw [List.getLast?_eq_some_iff] at hq
          obtain ⟨ys, rfl⟩ := hq
          simp
        have hmem : y ∈ z :: q.dropLast ↔ y ∈ q := by
          rw [List.mem_cons]
          conv_rhs => rw [hqe]
          rw [List.mem_append, List.mem_singleton]
          exact or_comm
        have hne : y ∈ q → y ≠ x := fun h e => h1.1 (e ▸ h)
        refine or3_and ?_ (iff_and_of hlr2.1) (iff_and_of hlr2.2)
        rw [hmem, List.mem_cons, and_assoc]
        refine and_congr_right fun _ => ⟨fun h => ⟨.inr h, hne h⟩, ?_⟩
        rintro ⟨h | h, hn⟩
        · exact absurd h hn
        · exact h
      | none =>
        have hq : q = [] := by simpa using hq
        subst hq
        rw [Tree.dropNode_mem]
        constructor
        · rintro (h | h)
          · exact ⟨.inr (.inl h), hlr2.1 h⟩
          · exact ⟨.inr (.inr h), hlr2.2 h⟩
        · rintro ⟨⟨-, h⟩ | h | h, hn⟩
          · exact absurd (List.mem_singleton.1 h) hn
          · exact .inl h
          · exact .inr h
    · rw [if_neg hxp]
      by_cases hxq : x ∈ q
      · rw [if_pos hxq]
        have hlr2 := hlr (by simp [hxq]) s
        refine or3_and ?_ (iff_and_of hlr2.1) (iff_and_of hlr2.2)
        rw [List.mem_cons, List.mem_cons, h1.2.mem_erase_iff, and_assoc]
        refine and_congr_right fun _ => ⟨?_, ?_⟩
        · rintro (h | h)
          · exact ⟨.inl h, fun e => hxp (e ▸ h)⟩
          · exact ⟨.inr h.2, h.1⟩
        · rintro ⟨h | h, hn⟩
          · exact .inl h
          · exact .inr ⟨hn, h⟩
      · rw [if_neg hxq]
        refine or3_and (iff_and_of ?_) (ihl h4 hul y s) (ihr h5 hur y s)
        rintro ⟨-, h⟩ rfl
        rcases List.mem_cons.1 h with h | h
        · exact hxp h
        · exact hxq h

theorem Tree.unlink_path {x : Nat} : ∀ {t : Tree} {b : Nat}, t.Path b → t.Uniq → (t.unlink x).Path b := by
  intro t
  induction t with
  | leaf => intro b _ _; trivial
  | node s0 p q l r ihl ihr =>
    intro b hp hu
    have hul : l.Uniq := fun z a b ha hb => hu z a b (.inr (.inl ha)) (.inr (.inl hb))
    have hur : r.Uniq := fun z a b ha hb => hu z a b (.inr (.inr ha)) (.inr (.inr hb))
    obtain ⟨h1, h2, h3, h4, h5⟩ := hp
    simp only [Tree.unlink]
    by_cases hxp : x = p
    · rw [if_pos hxp]
      cases hq : q.getLast? with
      | some z =>
        refine ⟨?_, h2, h3, h4, h5⟩
        rw [List.getLast?_eq_some_iff] at hq
        obtain ⟨ys, rfl⟩ := hq
        rw [List.nodup_cons] at h1
        simp only [List.dropLast_concat]
        exact (List.perm_append_singleton z ys).nodup_iff.1 h1.2
      | none => exact Tree.dropNode_path (fun y s' h => (h2 y s' h).1) (fun y s' h => (h3 y s' h).1) h4 h5
    · rw [if_neg hxp]
      by_cases hxq : x ∈ q
      · rw [if_pos hxq]
        refine ⟨?_, h2, h3, h4, h5⟩
        rw [List.nodup_cons] at h1 ⊢
        exact ⟨fun h => h1.1 (List.mem_of_mem_erase h), h1.2.erase x⟩
      · rw [if_neg hxq]
        exact ⟨h1, fun y s' hy => h2 y s' ((Tree.unlink_mem h4 hul y s').1 hy).1,
          fun y s' hy => h3 y s' ((Tree.unlink_mem h5 hur y s').1 hy).1, ihl h4 hul, ihr h5 hur⟩

end Verif.Dl
