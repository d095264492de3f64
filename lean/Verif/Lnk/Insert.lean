import Verif.Lnk.Trie
/-!
# `insert_large_chunk` on a trie in memory
-/
namespace Verif.Lnk
open Dl (Tree dir keyBits)
open Tag (Mem ld st ld_st_same ld_st_ne ld_congr st_of_ne chunksize)

section
variable {A : Nat} {m : Mem} {i : Nat}

theorem ring_addr {p : Nat} {q : List Nat} {y : Nat} (h : y ∈ (A + p) :: q.map (A + ·)) : ∃ x ∈ p :: q, y = A + x := by
  rcases List.mem_cons.1 h with rfl | h
  · exact ⟨p, by simp, rfl⟩
  · obtain ⟨x, hx, rfl⟩ := List.mem_map.1 h; exact ⟨x, by simp [hx], rfl⟩

theorem nodup_add (A : Nat) {ls : List Nat} (h : ls.Nodup) : (ls.map (A + ·)).Nodup :=
  List.pairwise_map.2 (h.imp (fun h e => h (Nat.add_left_cancel e)))

theorem newNode_frame {x a t y : Nat} (h1 : y < a ∨ a + 8 ≤ y) (h2 : y < x + 16 ∨ x + 32 ≤ y) (h3 : y < x + 48 ∨ x + 56 ≤ y) :
    newNode m x a t y = m y := by
  simp only [newNode, setFd, setBk, setParent]
  rw [st_of_ne (by omega), st_of_ne (by omega), st_of_ne (by omega), st_of_ne (by omega)]

theorem newNode_slot {x a t : Nat} (hx : x < 2 ^ 64) (h2 : a + 8 ≤ x + 16 ∨ x + 60 ≤ a) : ld (newNode m x a t) a = x := by
  simp only [newNode, setFd, setBk, setParent]
  rw [ld_st_ne (by omega), ld_st_ne (by omega), ld_st_ne (by omega), ld_st_same hx]

/-- a chunk that is a trie by itself -/
theorem newNode_rep {x a t s : Nat} (hx : A + x + 64 < 2 ^ 64) (ht : t < 2 ^ 64) (h2 : a + 8 ≤ A + x + 16 ∨ A + x + 60 ≤ a)
    (hi : index m (A + x) = i) (hc : ∀ d, ld m (childAt (A + x) d) = 0) : TRep A (newNode m (A + x) a t) i t (.node s x [] .leaf .leaf) := by
  refine ⟨⟨?_, fun d => ?_, fun y hy => ?_, ⟨?_, ?_⟩, fun y hy => by cases hy⟩, trivial, trivial⟩
  · simp only [newNode, setFd, setBk, setParent, parent]
    rw [ld_st_ne (by omega), ld_st_ne (by omega), ld_st_same ht]
  · have := childAt_cases (A + x) d
    rw [show ptr A (kid .leaf .leaf d) = 0 by cases d <;> rfl, ← hc d]
    exact ld_congr (fun y h1 h2 => newNode_frame (by omega) (by omega) (by omega))
  · rw [List.mem_singleton] at hy
    subst hy
    rw [← hi]
    exact ld32_congr (fun y h1 h2 => newNode_frame (by omega) (by omega) (by omega))
  · simp only [newNode, setFd, setBk, setParent, fd]
    rw [ld_st_same (by omega)]
  · simp only [newNode, setFd, setBk, setParent, bk]
    rw [ld_st_ne (by omega), ld_st_same (by omega)]

/-- L3694-3697: `x` joins the ring of `p` -/
theorem join_rep {b par x p s : Nat} {q : List Nat} {l r : Tree} (g : Good A (.node s p q l r) b) (hr : NRep A m i par p q (fun d => ptr A (kid l r d)))
    (hx : A + x + 64 < 2 ^ 64) (fresh : ∀ y s', (Tree.node s p q l r).mem y s' → x + 64 ≤ y ∨ y + 64 ≤ x) (hi : index m (A + x) = i)
    (hc : ∀ d, ld m (childAt (A + x) d) = 0) {f : Nat} (hf : f = fd m (A + p)) {m' : Mem}
    (hm : m' = setParent (setBk (setFd (setFd (setBk m f (A + x)) (A + p) (A + x)) (A + x) f) (A + x) (A + p)) (A + x) 0) :
    NRep A m' i par p (x :: q) (fun d => ptr A (kid l r d)) ∧
      ∀ y, (∀ z ∈ p :: q, y < A + z + 16 ∨ A + z + 32 ≤ y) → (y < A + x + 16 ∨ A + x + 32 ≤ y) → (y < A + x + 48 ∨ A + x + 56 ≤ y) → m' y = m y := by
  have hfm : ∃ z ∈ p :: q, f = A + z := by
    rw [hf, seg_fd hr.ring]
    rcases headD_mem (q.map (A + ·)) (A + p) with e | e
    · exact ⟨p, by simp, e⟩
    · obtain ⟨z, hz, e⟩ := List.mem_map.1 e; exact ⟨z, by simp [hz], e.symm⟩
  obtain ⟨z, hz, ez⟩ := hfm
  have sx : ∀ y ∈ p :: q, x + 64 ≤ y ∨ y + 64 ≤ x := fun y hy => fresh y s (g.chunk hy)
  have sp := g.sep
  have sm : ∀ y ∈ p :: q, ∀ y' ∈ p :: q, y = y' ∨ y + 64 ≤ y' ∨ y' + 64 ≤ y := fun y hy y' hy' => g.sep y s y' s (g.chunk hy) (g.chunk hy')
  have lt : ∀ y ∈ p :: q, A + y + 64 < 2 ^ 64 := fun y hy => g.lt y s (g.chunk hy)
  have sxp := sx p (by simp)
  have sxz := sx z hz
  have szp := sm z hz p (by simp)
  have ltz := lt z hz
  have ltp := lt p (by simp)
  have frame : ∀ y, (y < f + 24 ∨ f + 32 ≤ y) → (y < A + p + 16 ∨ A + p + 24 ≤ y) → (y < A + x + 16 ∨ A + x + 32 ≤ y) → (y < A + x + 48 ∨ A + x + 56 ≤ y) → m' y = m y := by
    intro y h1 h2 h3 h4
    rw [hm]
    simp only [setFd, setBk, setParent]
    rw [st_of_ne (by omega), st_of_ne (by omega), st_of_ne (by omega), st_of_ne (by omega), st_of_ne (by omega)]
  have fdv : ∀ y ∈ x :: p :: q, fd m' (A + y) = if y = x then f else if y = p then A + x else fd m (A + y) := by
    intro y hy
    simp only [hm, setFd, setBk, setParent, fd]
    rcases List.mem_cons.1 hy with rfl | hy
    · rw [if_pos rfl, ld_st_ne (by omega), ld_st_ne (by omega), ld_st_same (by omega)]
    · have h1 := sx y hy
      have h2 := sm y hy p (by simp)
      have h3 := sm y hy z hz
      rw [if_neg (show ¬(y = x) by omega), ld_st_ne (by omega), ld_st_ne (by omega), ld_st_ne (by omega)]
      by_cases e : y = p
      · rw [if_pos e, e, ld_st_same (by omega)]
      · rw [if_neg e, ld_st_ne (by omega), ld_st_ne (by omega)]
  have bkv : ∀ y ∈ x :: p :: q, bk m' (A + y) = if y = x then A + p else if A + y = f then A + x else bk m (A + y) := by
    intro y hy
    simp only [hm, setFd, setBk, setParent, bk]
    rcases List.mem_cons.1 hy with rfl | hy
    · rw [if_pos rfl, ld_st_ne (by omega), ld_st_same (by omega)]
    · have h1 := sx y hy
      have h2 := sm y hy p (by simp)
      have h3 := sm y hy z hz
      rw [if_neg (show ¬(y = x) by omega), ld_st_ne (by omega), ld_st_ne (by omega), ld_st_ne (by omega), ld_st_ne (by omega)]
      by_cases e : A + y = f
      · rw [if_pos e, e, ld_st_same (by omega)]
      · rw [if_neg e, ld_st_ne (by omega)]
  have word : ∀ k y, y ∈ p :: q → 32 ≤ k → ∀ z, A + y + k ≤ z → z < A + y + 60 → m' z = m z := by
    intro k y hy hk w h1 h2
    have := sx y hy
    have := sm y hy p (by simp)
    have := sm y hy z hz
    exact frame w (by omega) (by omega) (by omega) (by omega)
  refine ⟨⟨?_, fun d => ?_, fun y hy => ?_, ?_, fun y hy => ?_⟩, fun y h1 h2 h3 => ?_⟩
  · rw [← hr.parent]
    exact ld_congr (fun y h1 h2 => word 48 p (by simp) (by omega) y h1 (by omega))
  · rw [← hr.child d]
    have := childAt_cases (A + p) d
    exact ld_congr (fun y h1 h2 => word 32 p (by simp) (by omega) y (by omega) (by omega))
  · have hy : y = x ∨ y ∈ p :: q := by simp at hy ⊢; tauto
    rcases hy with rfl | hy
    · rw [← hi]
      exact ld32_congr (fun w h1 h2 => frame w (by omega) (by omega) (by omega) (by omega))
    · rw [← hr.index y hy]
      exact ld32_congr (fun w h1 h2 => word 56 y hy (by omega) w h1 (by omega))
  · have hn : ((A + p) :: (A + x) :: q.map (A + ·)).Nodup := by
      have h1 : (p :: x :: q).Nodup := by
        have := g.path.1
        rw [List.nodup_cons] at this
        refine List.nodup_cons.2 ⟨?_, List.nodup_cons.2 ⟨?_, this.2⟩⟩
        · intro h
          rcases List.mem_cons.1 h with rfl | h
          · omega
          · exact this.1 h
        · intro h
          have := sx x (by simp [h])
          omega
      have h2 := nodup_add A h1
      simpa using h2
    have hhd : (q.map (A + ·)).headD (A + p) = f := by rw [hf, seg_fd hr.ring]
    refine ring_insert (m := m) hn (fun _ => hr.ring) ?_ ?_ ?_ ?_ ?_ ?_
    · rw [fdv p (by simp), if_neg (show ¬(p = x) by omega), if_pos rfl]
    · rw [hhd, ez, bkv z (by simp at hz ⊢; tauto), if_neg (show ¬(z = x) by omega), if_pos ez.symm]
    · rw [hhd, fdv x (by simp), if_pos rfl]
    · rw [bkv x (by simp), if_pos rfl]
    · intro y hy
      obtain ⟨w, hw, rfl⟩ := List.mem_map.1 hy
      have h1 := sx w (by simp [hw])
      have h2 := g.ring_apart hw
      rw [fdv w (by simp [hw]), if_neg (show ¬(w = x) by omega), if_neg (show ¬(w = p) by omega)]
    · intro y hy hne
      rw [hhd] at hne
      obtain ⟨w, hw, rfl⟩ := ring_addr hy
      have h1 := sx w hw
      rw [bkv w (by simp at hw ⊢; tauto), if_neg (show ¬(w = x) by omega), if_neg hne]
  · rcases List.mem_cons.1 hy with rfl | hy
    · refine ⟨?_, fun d => ?_⟩
      · simp only [hm, setParent, parent]
        rw [ld_st_same (by omega)]
      · have := childAt_cases (A + y) d
        rw [← hc d]
        exact ld_congr (fun w h1 h2 => frame w (by omega) (by omega) (by omega) (by omega))
    · obtain ⟨h1, h2⟩ := hr.chain y hy
      refine ⟨?_, fun d => ?_⟩
      · rw [← h1]
        exact ld_congr (fun w h1 h2 => word 48 y (by simp [hy]) (by omega) w h1 (by omega))
      · have := childAt_cases (A + y) d
        rw [← h2 d]
        exact ld_congr (fun w h1 h2 => word 32 y (by simp [hy]) (by omega) w (by omega) (by omega))
  · have := h1 z hz
    have := h1 p (by simp)
    exact frame y (by omega) (by omega) (by omega) (by omega)

/-- the loop of `insert_large_chunk` ends and puts the chunk where `Tree.insert` puts it -/
theorem insertLoop_spec {base x s : Nat} (hb : base ≤ A) (h0 : 0 < A) (hx : A + x + 64 < 2 ^ 64) (hi : index m (A + x) = i)
    (hc : ∀ d, ld m (childAt (A + x) d) = 0) : ∀ (t : Tree) (b n par : Nat), Good A t b → b ≤ 64 → t ≠ .leaf → height t ≤ n → TRep A m i par t →
    (∀ y s', t.mem y s' → chunksize m (A + y) = s') → (∀ y s', t.mem y s' → x + 64 ≤ y ∨ y + 64 ≤ x) →
    ∃ m', insertLoop base (A + x) s n m (ptr A t) (key s b) = some m' ∧ TRep A m' i par (t.insert x s b) ∧ ptr A (t.insert x s b) = ptr A t ∧
      ∀ y, ¬Own A t y → (y < A + x + 16 ∨ A + x + 56 ≤ y) → m' y = m y := by
  intro t
  induction t with
  | leaf => intro b n par _ _ h; exact absurd rfl h
  | node s' p q l r ihl ihr =>
    intro b n par g hb64 _ hn h sz fresh
    obtain ⟨hr, hl, hrr⟩ := h
    cases n with
    | zero => simp [height] at hn
    | succ n =>
      have hpm := g.root
      have ltp := g.lt p s' hpm
      have sxp := fresh p s' hpm
      have sq : ∀ y ∈ q, y + 64 ≤ p ∨ p + 64 ≤ y := fun y hy => g.ring_apart hy
      rw [show ptr A (Tree.node s' p q l r) = A + p from rfl]
      simp only [insertLoop]
      rw [sz p s' hpm, key_msb hb64, hr.child]
      by_cases hs : s' = s
      · -- same size: join the ring
        subst hs
        rw [if_neg (by simp)]
        have hfA : base ≤ fd m (A + p) := by
          rw [seg_fd hr.ring]
          rcases headD_mem (q.map (A + ·)) (A + p) with e | e
          · rw [e]; omega
          · obtain ⟨z, hz, e⟩ := List.mem_map.1 e; omega
        rw [if_pos ⟨by omega, hfA⟩]
        obtain ⟨j1, j2⟩ := join_rep g hr hx fresh hi hc rfl rfl
        refine ⟨_, rfl, ?_, ?_, ?_⟩
        · simp only [Tree.insert]
          rw [if_neg (by simp)]
          refine ⟨j1, hl.congr ?_, hrr.congr ?_⟩
          · rintro y ⟨w, z, hw, h1, h2⟩
            have hw' := fresh w z (.inr (.inl hw))
            exact j2 y (fun u hu => by have := g.left_apart hu hw; omega) (by omega) (by omega)
          · rintro y ⟨w, z, hw, h1, h2⟩
            have hw' := fresh w z (.inr (.inr hw))
            exact j2 y (fun u hu => by have := g.right_apart hu hw; omega) (by omega) (by omega)
        · simp only [Tree.insert]
          rw [if_neg (by simp), ptr]
        · intro y h1 h2
          refine j2 y (fun z hz => ?_) (by omega) (by omega)
          by_contra hcon
          exact h1 ⟨z, s', g.chunk hz, by omega, by omega⟩
      · rw [if_pos hs]
        -- common part of the two directions
        have deeper : ∀ (d : Bool), dir s b = d → kid l r d ≠ .leaf →
            (∃ m', insertLoop base (A + x) s n m (ptr A (kid l r d)) (key s (b - 1)) = some m' ∧ TRep A m' i (A + p) ((kid l r d).insert x s (b - 1)) ∧
              ptr A ((kid l r d).insert x s (b - 1)) = ptr A (kid l r d) ∧ ∀ y, ¬Own A (kid l r d) y → (y < A + x + 16 ∨ A + x + 56 ≤ y) → m' y = m y) := by
          intro d _ hk
          cases d with
          | false => exact ihl (b - 1) n (A + p) g.left (by omega) hk (by simp only [height] at hn; omega) hl (fun y z hy => sz y z (.inr (.inl hy))) (fun y z hy => fresh y z (.inr (.inl hy)))
          | true => exact ihr (b - 1) n (A + p) g.right (by omega) hk (by simp only [height] at hn; omega) hrr (fun y z hy => sz y z (.inr (.inr hy))) (fun y z hy => fresh y z (.inr (.inr hy)))
        by_cases hk : kid l r (dir s b) = .leaf
        · -- free slot
          have hz : ptr A (kid l r (dir s b)) = 0 := by rw [hk]; rfl
          rw [if_neg (by simp [hz])]
          have hca := childAt_cases (A + p) (dir s b)
          rw [if_pos (by omega)]
          have hslot := newNode_slot (m := m) (x := A + x) (a := childAt (A + p) (dir s b)) (t := A + p) (by omega) (by omega)
          have hnew := newNode_rep (m := m) (i := i) (x := x) (a := childAt (A + p) (dir s b)) (t := A + p) (s := s) hx (by omega) (by omega) hi hc
          have hnode := hr.slot (m' := newNode m (A + x) (childAt (A + p) (dir s b)) (A + p)) (childAt (A + p) (dir s b)) (.inl ⟨_, rfl⟩) sq
            (by
              rintro y ⟨w, hw, h1, h2⟩ h3
              have := fresh w s' (g.chunk hw)
              exact newNode_frame (by omega) (by omega) (by omega))
          rw [hslot] at hnode
          have hsub : ∀ (u : Tree), (∀ y z, u.mem y z → (y + 64 ≤ p ∨ p + 64 ≤ y) ∧ (x + 64 ≤ y ∨ y + 64 ≤ x)) → TRep A m i (A + p) u →
              TRep A (newNode m (A + x) (childAt (A + p) (dir s b)) (A + p)) i (A + p) u := by
            intro u hu h
            refine h.congr ?_
            rintro y ⟨w, z, hw, h1, h2⟩
            have := hu w z hw
            exact newNode_frame (by omega) (by omega) (by omega)
          have hsl := hsub l (fun y z hy => ⟨(g.left_apart (by simp) hy).symm, fresh y z (.inr (.inl hy))⟩) hl
          have hsr := hsub r (fun y z hy => ⟨(g.right_apart (by simp) hy).symm, fresh y z (.inr (.inr hy))⟩) hrr
          refine ⟨_, rfl, ?_, ?_, ?_⟩
          · simp only [Tree.insert]
            rw [if_pos hs]
            cases hd : dir s b with
            | false =>
              rw [hd] at hk hnode hnew hsl hsr
              simp only [kid] at hk
              rw [if_neg (by simp)] at hk
              subst hk
              rw [if_neg (by simp)]
              refine ⟨?_, hnew, hsr⟩
              convert hnode using 1
              funext d
              cases d <;> simp [kid, Tree.insert, ptr, childAt]
            | true =>
              rw [hd] at hk hnode hnew hsl hsr
              simp only [kid] at hk
              rw [if_pos trivial] at hk
              subst hk
              rw [if_pos rfl]
              refine ⟨?_, hsl, hnew⟩
              convert hnode using 1
              funext d
              cases d <;> simp [kid, Tree.insert, ptr, childAt]
          · simp only [Tree.insert]
            rw [if_pos hs]
            split <;> rfl
          · intro y h1 h2
            refine newNode_frame ?_ (by omega) (by omega)
            by_contra hcon
            exact h1 ⟨p, s', hpm, by omega, by omega⟩
        · have hz : ptr A (kid l r (dir s b)) ≠ 0 := fun e => hk ((ptr_zero h0).1 e)
          rw [if_pos hz, key_shift hb64]
          obtain ⟨m', e1, e2, e3, e4⟩ := deeper _ rfl hk
          refine ⟨m', e1, ?_, ?_, ?_⟩
          · have hnode : NRep A m' i par p q (fun d => ptr A (kid l r d)) := by
              refine hr.congr ?_
              rintro y ⟨w, hw, h1, h2⟩
              have := fresh w s' (g.chunk hw)
              refine e4 y ?_ (by omega)
              rintro ⟨u, z, hu, h3, h4⟩
              have : w + 64 ≤ u ∨ u + 64 ≤ w := by
                cases hd : dir s b with
                | false => rw [hd] at hu; exact g.left_apart hw hu
                | true => rw [hd] at hu; exact g.right_apart hw hu
              omega
            simp only [Tree.insert]
            rw [if_pos hs]
            cases hd : dir s b with
            | false =>
              rw [hd] at e2 e3 e4
              rw [if_neg (by simp)]
              simp only [kid] at e2 e3 e4
              rw [if_neg (by simp)] at e2 e3 e4
              refine ⟨?_, e2, hrr.congr ?_⟩
              · convert hnode using 1
                funext d
                cases d <;> simp [kid, e3]
              · rintro y ⟨w, z, hw, h1, h2⟩
                have := fresh w z (.inr (.inr hw))
                refine e4 y ?_ (by omega)
                rintro ⟨u, z', hu, h3, h4⟩
                have := g.sides hu hw
                omega
            | true =>
              rw [hd] at e2 e3 e4
              rw [if_pos rfl]
              simp only [kid] at e2 e3 e4
              rw [if_pos trivial] at e2 e3 e4
              refine ⟨?_, hl.congr ?_, e2⟩
              · convert hnode using 1
                funext d
                cases d <;> simp [kid, e3]
              · rintro y ⟨w, z, hw, h1, h2⟩
                have := fresh w z (.inr (.inl hw))
                refine e4 y ?_ (by omega)
                rintro ⟨u, z', hu, h3, h4⟩
                have := g.sides hw hu
                omega
          · simp only [Tree.insert]
            rw [if_pos hs]
            split <;> rfl
          · intro y h1 h2
            refine e4 y ?_ h2
            rintro ⟨u, z, hu, h3⟩
            refine h1 ⟨u, z, ?_, h3⟩
            cases hd : dir s b with
            | false => rw [hd] at hu; exact .inr (.inl hu)
            | true => rw [hd] at hu; exact .inr (.inr hu)

end

end Verif.Lnk
