import Verif.Lnk.Model
/-!
# Words and rings in memory
-/
namespace Verif.Lnk
open Tag (Mem ld st ld_st_same ld_st_ne ld_congr st_of_ne)

/-! ## Words -/

theorem ld_st {m : Mem} {a b v : Nat} (hv : v < 2 ^ 64) (h : b = a ∨ b + 8 ≤ a ∨ a + 8 ≤ b) : ld (st m a v) b = if b = a then v else ld m b := by
  by_cases e : b = a
  · subst e; rw [if_pos rfl, ld_st_same hv]
  · rw [if_neg e, ld_st_ne (by omega)]

theorem ld32_congr {m m' : Mem} {a : Nat} (h : ∀ x, a ≤ x → x < a + 4 → m' x = m x) : ld32 m' a = ld32 m a := by
  unfold ld32
  rw [h a (by omega) (by omega), h (a + 1) (by omega) (by omega), h (a + 2) (by omega) (by omega), h (a + 3) (by omega) (by omega)]

theorem st32_of_ne {m : Mem} {a v x : Nat} (h : x < a ∨ a + 4 ≤ x) : st32 m a v x = m x := by
  unfold st32
  rw [if_neg (by omega)]

theorem st32_at {m : Mem} {a v : Nat} (k : Nat) (h : k < 4) : st32 m a v (a + k) = BitVec.ofNat 8 (v / 2 ^ (8 * k)) := by
  unfold st32
  rw [if_pos (by omega), Nat.add_sub_cancel_left]

theorem ld32_st32_same {m : Mem} {a v : Nat} (h : v < 2 ^ 32) : ld32 (st32 m a v) a = v := by
  unfold ld32
  have e0 := st32_at (m := m) (a := a) (v := v) 0 (by omega)
  rw [Nat.add_zero] at e0
  rw [e0, st32_at 1 (by omega), st32_at 2 (by omega), st32_at 3 (by omega)]
  simp only [BitVec.toNat_ofNat]
  omega

/-! ## Links to neighbours -/

/-- `x` and `y` have their neighbour fields in different places -/
def Far (x y : Nat) : Prop := x = y ∨ x + 16 ≤ y ∨ y + 16 ≤ x

theorem Far.symm {x y : Nat} (h : Far x y) : Far y x := by unfold Far at *; omega

theorem fd_setFd {m : Mem} {x y v : Nat} (hv : v < 2 ^ 64) (h : Far x y) : fd (setFd m x v) y = if y = x then v else fd m y := by
  unfold fd setFd
  unfold Far at h
  rw [ld_st hv (by omega)]
  simp only [Nat.add_right_cancel_iff]

theorem bk_setBk {m : Mem} {x y v : Nat} (hv : v < 2 ^ 64) (h : Far x y) : bk (setBk m x v) y = if y = x then v else bk m y := by
  unfold bk setBk
  unfold Far at h
  rw [ld_st hv (by omega)]
  simp only [Nat.add_right_cancel_iff]

theorem fd_setBk {m : Mem} {x y v : Nat} (h : Far x y) : fd (setBk m x v) y = fd m y := by
  unfold fd setBk
  unfold Far at h
  exact ld_st_ne (by omega)

theorem bk_setFd {m : Mem} {x y v : Nat} (h : Far x y) : bk (setFd m x v) y = bk m y := by
  unfold bk setFd
  unfold Far at h
  exact ld_st_ne (by omega)

/-- from `x` along `fd` through `ys` to `z`, and back along `bk` -/
def Seg (m : Mem) : Nat → List Nat → Nat → Prop
  | x, [], z => fd m x = z ∧ bk m z = x
  | x, y :: ys, z => fd m x = y ∧ bk m y = x ∧ Seg m y ys z

theorem seg_append {m : Mem} {y z : Nat} : ∀ {as bs : List Nat} {x : Nat}, Seg m x (as ++ y :: bs) z ↔ Seg m x as y ∧ Seg m y bs z := by
  intro as
  induction as with
  | nil => intro bs x; simp [Seg, and_assoc]
  | cons a as ih => intro bs x; simp [Seg, ih, and_assoc]

theorem seg_congr {m m' : Mem} {z : Nat} : ∀ {ys : List Nat} {x : Nat}, (∀ y ∈ x :: ys, fd m' y = fd m y) → (∀ y ∈ ys ++ [z], bk m' y = bk m y) →
    Seg m x ys z → Seg m' x ys z := by
  intro ys
  induction ys with
  | nil =>
    intro x h1 h2 h
    exact ⟨by rw [h1 x (by simp)]; exact h.1, by rw [h2 z (by simp)]; exact h.2⟩
  | cons y ys ih =>
    intro x h1 h2 h
    refine ⟨by rw [h1 x (by simp)]; exact h.1, by rw [h2 y (by simp)]; exact h.2.1, ih (fun w hw => h1 w (by simp at hw ⊢; tauto)) (fun w hw => h2 w (by simp at hw ⊢; tauto)) h.2.2⟩

/-- the first of `ys`, or `z` -/
theorem seg_fd {m : Mem} {x z : Nat} {ys : List Nat} (h : Seg m x ys z) : fd m x = ys.headD z := by
  cases ys with
  | nil => exact h.1
  | cons y ys => exact h.1

theorem seg_bk {m : Mem} {z : Nat} : ∀ {ys : List Nat} {x : Nat}, Seg m x ys z → bk m z = ys.getLastD x := by
  intro ys
  induction ys with
  | nil => intro x h; exact h.2
  | cons y ys ih => intro x h; rw [ih h.2.2, List.getLastD_cons]

theorem headD_mem (ys : List Nat) (z : Nat) : ys.headD z = z ∨ ys.headD z ∈ ys := by cases ys <;> simp
theorem getLastD_mem (ys : List Nat) (z : Nat) : ys.getLastD z = z ∨ ys.getLastD z ∈ ys := by
  rcases List.eq_nil_or_concat ys with rfl | ⟨l, a, rfl⟩
  · simp
  · right; simp

/-- the same way to another end -/
theorem seg_retarget {m m' : Mem} {p z : Nat} : ∀ {as : List Nat} {x : Nat}, (x :: as).Nodup → Seg m x as p → (∀ y ∈ x :: as, y ≠ as.getLastD x → fd m' y = fd m y) →
    (∀ y ∈ as, bk m' y = bk m y) → fd m' (as.getLastD x) = z → bk m' z = as.getLastD x → Seg m' x as z := by
  intro as
  induction as with
  | nil => intro x _ _ _ _ h3 h4; exact ⟨h3, h4⟩
  | cons a as ih =>
    intro x hn h h1 h2 h3 h4
    rw [List.getLastD_cons] at h1 h3 h4
    rw [List.nodup_cons] at hn
    have hx : x ≠ as.getLastD a := by
      intro e
      rcases getLastD_mem as a with e' | e'
      · exact hn.1 (by rw [e, e']; simp)
      · exact hn.1 (by rw [e]; exact List.mem_cons_of_mem _ e')
    exact ⟨by rw [h1 x (by simp) hx]; exact h.1, by rw [h2 a (by simp)]; exact h.2.1,
      ih hn.2 h.2.2 (fun y hy => h1 y (by simp at hy ⊢; tauto)) (fun y hy => h2 y (by simp [hy])) h3 h4⟩

/-- a new one behind the head -/
theorem ring_insert {m m' : Mem} {h p : Nat} {ys : List Nat} (hn : (h :: p :: ys).Nodup) (hr : ys ≠ [] → Seg m h ys h) (h1 : fd m' h = p) (h2 : bk m' (ys.headD h) = p)
    (h3 : fd m' p = ys.headD h) (h4 : bk m' p = h) (h5 : ∀ y ∈ ys, fd m' y = fd m y) (h6 : ∀ y ∈ h :: ys, y ≠ ys.headD h → bk m' y = bk m y) : Seg m' h (p :: ys) h := by
  refine ⟨h1, h4, ?_⟩
  cases ys with
  | nil => exact ⟨h3, h2⟩
  | cons y t =>
    have hr := (hr (by simp)).2.2
    simp only [List.headD_cons] at h2 h3 h6
    simp only [List.nodup_cons, List.mem_cons, not_or] at hn
    refine ⟨h3, h2, seg_congr (fun w hw => h5 w hw) (fun w hw => h6 w ?_ ?_) hr⟩
    · simp at hw ⊢; tauto
    · rintro rfl
      simp only [List.mem_append, List.mem_singleton] at hw
      rcases hw with hw | hw
      · exact hn.2.2.1 hw
      · exact hn.1.2.1 hw.symm

/-- one is taken out -/
theorem ring_remove {m m' : Mem} {h p : Nat} {as bs : List Nat} (hn : (h :: (as ++ p :: bs)).Nodup) (hr : Seg m h (as ++ p :: bs) h)
    (h1 : fd m' (as.getLastD h) = bs.headD h) (h2 : bk m' (bs.headD h) = as.getLastD h)
    (h5 : ∀ y ∈ h :: (as ++ bs), y ≠ as.getLastD h → fd m' y = fd m y) (h6 : ∀ y ∈ h :: (as ++ bs), y ≠ bs.headD h → bk m' y = bk m y) : Seg m' h (as ++ bs) h := by
  obtain ⟨r1, r2⟩ := seg_append.1 hr
  simp only [List.nodup_cons, List.mem_append, List.mem_cons, not_or, List.nodup_append] at hn
  obtain ⟨⟨n1, n2, n3⟩, n4, ⟨n5, n6⟩, n7⟩ := hn
  have hna : (h :: as).Nodup := List.nodup_cons.2 ⟨n1, n4⟩
  have hf : ∀ y ∈ as, y ≠ bs.headD h := by
    rintro y hy rfl
    rcases headD_mem bs h with e | e
    · rw [e] at hy; exact n1 hy
    · exact n7 _ hy _ (.inr e) rfl
  have hfa : ∀ y ∈ h :: as, y ≠ as.getLastD h → fd m' y = fd m y := fun y hy => h5 y (by simp at hy ⊢; tauto)
  have hba : ∀ y ∈ as, bk m' y = bk m y := fun y hy => h6 y (by simp [hy]) (hf y hy)
  cases bs with
  | nil =>
    rw [List.append_nil]
    simp only [List.headD_nil] at h1 h2
    exact seg_retarget hna r1 hfa hba h1 h2
  | cons y t =>
    simp only [List.headD_cons] at h1 h2 h6
    have hl : ∀ w ∈ y :: t, w ≠ as.getLastD h := by
      rintro w hw rfl
      rcases getLastD_mem as h with e | e
      · rw [e] at hw; exact n3 hw
      · exact n7 _ e _ (.inr hw) rfl
    refine seg_append.2 ⟨seg_retarget hna r1 hfa hba h1 h2, seg_congr (fun w hw => h5 w (by simp at hw ⊢; tauto) (hl w hw)) (fun w hw => h6 w (by simp at hw ⊢; tauto) ?_) r2.2.2⟩
    rintro rfl
    simp only [List.mem_append, List.mem_singleton] at hw
    rcases hw with hw | hw
    · exact (List.nodup_cons.1 n6).1 hw
    · exact n3 (by rw [← hw]; simp)

/-- the head is taken out, its predecessor becomes the head -/
theorem ring_drop {m m' : Mem} {p z : Nat} {ys : List Nat} (hn : (ys ++ [z]).Nodup) (hr : Seg m p (ys ++ [z]) p)
    (h1 : fd m' z = ys.headD z) (h2 : bk m' (ys.headD z) = z)
    (h5 : ∀ y ∈ ys, fd m' y = fd m y) (h6 : ∀ y ∈ ys ++ [z], y ≠ ys.headD z → bk m' y = bk m y) : Seg m' z ys z := by
  cases ys with
  | nil => exact ⟨h1, h2⟩
  | cons y t =>
    simp only [List.headD_cons] at h1 h2 h6
    simp only [List.cons_append, List.nodup_cons] at hn
    have hr' : Seg m y (t ++ [z]) p := hr.2.2
    obtain ⟨r1, -⟩ := seg_append.1 hr'
    refine ⟨h1, h2, seg_congr h5 (fun w hw => h6 w (by simp at hw ⊢; tauto) ?_) r1⟩
    rintro rfl
    exact hn.1 hw

end Verif.Lnk
