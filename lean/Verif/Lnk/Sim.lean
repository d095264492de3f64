import Verif.Lnk.Links
/-!
# Links and headers together
-/
namespace Verif.Lnk
open Dl (Tree Bins BInv dir keyBits idx2bit isSmall treeIndex)
open Tag (Mem CS ld st ld_st_same ld_st_ne ld_congr st_of_ne chunksize cinuse pinuse inuseBits prevFoot head setFree setFreeWith setInuse setInusePinuse
  setSizePinuse setPinuse clearPinuse setFoot InBins Scratch)

/-- the memory from the first chunk on -/
def view (base : Nat) (m : Mem) : Mem := fun x => m (first base + x)

/-- equal bytes outside `D` -/
def Agree (D : Nat → Prop) (a b : Mem) : Prop := ∀ x, ¬D x → a x = b x

section
variable {base : Nat}

theorem ld_view (m : Mem) (a : Nat) : ld (view base m) a = ld m (first base + a) := rfl

theorem view_st (m : Mem) (a v : Nat) : view base (st m (first base + a) v) = st (view base m) a v := by
  funext x
  unfold view st
  by_cases h : a ≤ x ∧ x < a + 8
  · rw [if_pos h, if_pos (by omega)]
    rw [show first base + x - (first base + a) = x - a by omega]
  · rw [if_neg h, if_neg (by omega)]

theorem head_view (m : Mem) (p : Nat) : head (view base m) p = head m (first base + p) := by
  unfold head; rw [ld_view, Nat.add_assoc]
theorem prevFoot_view (m : Mem) (p : Nat) : prevFoot (view base m) p = prevFoot m (first base + p) := rfl
theorem pinuse_view (m : Mem) (p : Nat) : pinuse (view base m) p = pinuse m (first base + p) := by unfold pinuse; rw [head_view]
theorem cinuse_view (m : Mem) (p : Nat) : cinuse (view base m) p = cinuse m (first base + p) := by unfold cinuse; rw [head_view]
theorem inuseBits_view (m : Mem) (p : Nat) : inuseBits (view base m) p = inuseBits m (first base + p) := by unfold inuseBits; rw [head_view]
theorem chunksize_view (m : Mem) (p : Nat) : chunksize (view base m) p = chunksize m (first base + p) := by unfold chunksize; rw [head_view]

theorem view_setPinuse (m : Mem) (p : Nat) : view base (setPinuse m (first base + p)) = setPinuse (view base m) p := by
  unfold setPinuse; rw [Nat.add_assoc, view_st, head_view]
theorem view_clearPinuse (m : Mem) (p : Nat) : view base (clearPinuse m (first base + p)) = clearPinuse (view base m) p := by
  unfold clearPinuse; rw [Nat.add_assoc, view_st, head_view]
theorem view_setFree (m : Mem) (p s : Nat) : view base (setFree m (first base + p) s) = setFree (view base m) p s := by
  unfold setFree setFoot; rw [Nat.add_assoc, Nat.add_assoc, view_st, view_st]
theorem view_setFreeWith (m : Mem) (p s n : Nat) : view base (setFreeWith m (first base + p) s (first base + n)) = setFreeWith (view base m) p s n := by
  unfold setFreeWith; rw [view_setFree, view_clearPinuse]
theorem view_setInuse (m : Mem) (p s : Nat) : view base (setInuse m (first base + p) s) = setInuse (view base m) p s := by
  unfold setInuse; rw [show first base + p + s = first base + (p + s) by omega, view_setPinuse, Nat.add_assoc, view_st, head_view]
theorem view_setInusePinuse (m : Mem) (p s : Nat) : view base (setInusePinuse m (first base + p) s) = setInusePinuse (view base m) p s := by
  unfold setInusePinuse; rw [show first base + p + s = first base + (p + s) by omega, view_setPinuse, Nat.add_assoc, view_st]
theorem view_setSizePinuse (m : Mem) (p s : Nat) : view base (setSizePinuse m (first base + p) s) = setSizePinuse (view base m) p s := by
  unfold setSizePinuse; rw [Nat.add_assoc, view_st]

/-! ## Agreement -/

variable {D D' : Nat → Prop} {a b : Mem}

theorem Agree.mono (h : Agree D a b) (hd : ∀ x, D x → D' x) : Agree D' a b := fun x hx => h x (fun k => hx (hd x k))
theorem Agree.st (h : Agree D a b) (p v : Nat) : Agree D (st a p v) (st b p v) := by
  intro x hx
  unfold Tag.st
  split
  · rfl
  · exact h x hx
theorem Agree.ld (h : Agree D a b) {p : Nat} (hd : ∀ x, p ≤ x → x < p + 8 → ¬D x) : ld a p = ld b p := ld_congr (fun x h1 h2 => h x (hd x h1 h2))
theorem Agree.head (h : Agree D a b) {p : Nat} (hd : ∀ x, p + 8 ≤ x → x < p + 16 → ¬D x) : head a p = head b p := h.ld (fun x h1 h2 => hd x h1 (by omega))
theorem Agree.setFree (h : Agree D a b) (p s : Nat) : Agree D (setFree a p s) (setFree b p s) := (h.st _ _).st _ _
theorem Agree.clearPinuse (h : Agree D a b) {p : Nat} (hd : ∀ x, p + 8 ≤ x → x < p + 16 → ¬D x) : Agree D (clearPinuse a p) (clearPinuse b p) := by
  unfold Tag.clearPinuse; rw [h.head hd]; exact h.st _ _
theorem Agree.setPinuse (h : Agree D a b) {p : Nat} (hd : ∀ x, p + 8 ≤ x → x < p + 16 → ¬D x) : Agree D (setPinuse a p) (setPinuse b p) := by
  unfold Tag.setPinuse; rw [h.head hd]; exact h.st _ _
theorem Agree.setFreeWith (h : Agree D a b) {p s n : Nat} (hd : ∀ x, n + 8 ≤ x → x < n + 16 → ¬D x) : Agree D (setFreeWith a p s n) (setFreeWith b p s n) :=
  (h.clearPinuse hd).setFree _ _
theorem Agree.setInuse (h : Agree D a b) {p s : Nat} (hd : ∀ x, p + 8 ≤ x → x < p + 16 → ¬D x) (hn : ∀ x, p + s + 8 ≤ x → x < p + s + 16 → ¬D x) :
    Agree D (setInuse a p s) (setInuse b p s) := by
  unfold Tag.setInuse; rw [h.head hd]; exact (h.st _ _).setPinuse hn

/-! ## States -/

/-- how `dv` is stored -/
def encDv (base : Nat) : Option Nat → Nat
  | none => 0
  | some p => first base + p

theorem encDv_iff {d : Option Nat} {p : Nat} : first base + p = encDv base d ↔ d = some p := by
  cases d with
  | none => simp [encDv, first]
  | some q => simp [encDv]; omega

/-- the state with links `L` and the state `t` describe the same heap; memory agrees outside `D`, and has what `G` has below the heap -/
structure Sim (base : Nat) (G : Mem) (D : Nat → Prop) (L : State) (t : CS) : Prop where
  smallmap : L.smallmap = t.bins.smallmap
  treemap : L.treemap = t.bins.treemap
  dv : L.dv = encDv base t.bins.dv
  dvsize : L.dvsize = t.bins.dvsize
  top : L.top = first base + t.top
  topsize : L.topsize = t.topsize
  low : ∀ y, y < base → L.mem y = G y
  links : Links base L.mem t.bins
  mem : Agree D (view base L.mem) t.mem

variable {F : Nat → Option Nat} {L : State} {t : CS} {G : Mem}

theorem Sim.rebase (k : Sim base G D L t) : Sim base L.mem D L t := { k with low := fun _ _ => rfl }

theorem Sim.mono (k : Sim base G D L t) (h : ∀ x, D x → D' x) : Sim base G D' L t := { k with mem := k.mem.mono h }

/-- the memories change, but not the links -/
theorem Sim.setMem (v : BInv F t.bins) (k : Sim base G D L t) {m1 m2 : Mem} (h1 : ∀ y, y < first base → m1 y = L.mem y)
    (h2 : ∀ q s, F q = some s → t.bins.dv ≠ some q → ∀ y, first base + q + 16 ≤ y → y < first base + q + s → m1 y = L.mem y) (h3 : Agree D' (view base m1) m2) :
    Sim base G D' { L with mem := m1 } { t with mem := m2 } :=
  ⟨k.smallmap, k.treemap, k.dv, k.dvsize, k.top, k.topsize, fun y hy => (h1 y (by unfold first; omega)).trans (k.low y hy), k.links.congr v (fun y _ h => h1 y (by unfold first; omega)) h2, h3⟩

/-- `insert_chunk` -/
theorem insertChunk_sim {p s : Nat} (v : BInv F t.bins) (hs : Sep base F) (k : Sim base G D L t)
    (hz : ∀ q s', F q = some s' → t.bins.dv ≠ some q → chunksize L.mem (first base + q) = s')
    (h16 : 16 ∣ s) (h32 : 32 ≤ s) (hlt : first base + p + s < 2 ^ 64) (hp : ∀ q s', F q = some s' → t.bins.dv ≠ some q → p + s ≤ q ∨ q + s' ≤ p)
    (hd1 : ∀ x, D x → D' x) (hd2 : ∀ q s', F q = some s' → t.bins.dv ≠ some q → ∀ x, q + 16 ≤ x → x < q + s' → D' x) (hd3 : ∀ x, p + 16 ≤ x → x < p + s → D' x) :
    ∃ L', insertChunk base L (first base + p) s = some L' ∧ Sim base G D' L' { t with bins := t.bins.insert p s } := by
  have hmem : ∀ {m' : Mem}, (∀ y, (y < base ∨ first base ≤ y) → (∀ q s', F q = some s' → t.bins.dv ≠ some q → y < first base + q + 16 ∨ first base + q + s' ≤ y) →
        (y < first base + p + 16 ∨ first base + p + s ≤ y) → m' y = L.mem y) → Agree D' (view base m') t.mem := by
    intro m' h x hx
    rw [← k.mem x (fun hd => hx (hd1 x hd))]
    refine h (first base + x) (.inr (by omega)) (fun q s' h1 h2 => ?_) ?_
    · by_contra hc
      exact hx (hd2 q s' h1 h2 x (by omega) (by omega))
    · by_contra hc
      exact hx (hd3 x (by omega) (by omega))
  have hlow : ∀ {m' : Mem}, (∀ y, (y < base ∨ first base ≤ y) → (∀ q s', F q = some s' → t.bins.dv ≠ some q → y < first base + q + 16 ∨ first base + q + s' ≤ y) →
        (y < first base + p + 16 ∨ first base + p + s ≤ y) → m' y = L.mem y) → ∀ y, y < base → m' y = G y := fun h y hy =>
    (h y (.inl hy) (fun q _ _ _ => .inl (by unfold first; omega)) (.inl (by unfold first; omega))).trans (k.low y hy)
  unfold insertChunk Bins.insert
  cases hsm : isSmall s with
  | true =>
    obtain ⟨m', e1, e2, e3⟩ := insertSmall_links v hs k.links k.smallmap hsm h16 h32 hlt hp
    simp only [if_true]
    exact ⟨_, e1, rfl, k.treemap, k.dv, k.dvsize, k.top, k.topsize, hlow e3, e2, hmem e3⟩
  | false =>
    obtain ⟨m', e1, e2, e3⟩ := insertLarge_links v hs k.links k.treemap hsm hlt hp hz
    simp only [Bool.false_eq_true, if_false]
    exact ⟨_, e1, k.smallmap, rfl, k.dv, k.dvsize, k.top, k.topsize, hlow e3, e2, hmem e3⟩

/-- `unlink_chunk` -/
theorem unlinkChunk_sim {p s : Nat} (v : BInv F t.bins) (hs : Sep base F) (k : Sim base G D L t) (hp : F p = some s) (hdv : t.bins.dv ≠ some p)
    (hd2 : ∀ q s', F q = some s' → t.bins.dv ≠ some q → ∀ x, q + 16 ≤ x → x < q + s' → D x) :
    ∃ L', unlinkChunk base L (first base + p) s = some L' ∧ Sim base G D L' { t with bins := t.bins.unlink p s } := by
  have hmem : ∀ {m' : Mem}, (∀ y, (y < base ∨ first base ≤ y) → (∀ q s', F q = some s' → t.bins.dv ≠ some q → y < first base + q + 16 ∨ first base + q + s' ≤ y) → m' y = L.mem y) →
      Agree D (view base m') t.mem := by
    intro m' h x hx
    rw [← k.mem x hx]
    refine h (first base + x) (.inr (by omega)) (fun q s' h1 h2 => ?_)
    by_contra hc
    exact hx (hd2 q s' h1 h2 x (by omega) (by omega))
  have hlow : ∀ {m' : Mem}, (∀ y, (y < base ∨ first base ≤ y) → (∀ q s', F q = some s' → t.bins.dv ≠ some q → y < first base + q + 16 ∨ first base + q + s' ≤ y) → m' y = L.mem y) →
      ∀ y, y < base → m' y = G y := fun h y hy => (h y (.inl hy) (fun q _ _ _ => .inl (by unfold first; omega))).trans (k.low y hy)
  obtain ⟨z1, z2⟩ := v.size p s hp
  unfold unlinkChunk Bins.unlink
  cases hsm : isSmall s with
  | true =>
    have hlt : s / 8 < 32 := by simpa [isSmall] using hsm
    have h8 : 8 * (s / 8) = s := by omega
    obtain ⟨m', e1, e2, e3, -⟩ := unlinkSmall_links v hs k.links k.smallmap (p := p) (i := s / 8) ((v.small_mem _ _).2 ⟨by rw [h8]; exact hp, hlt, hdv⟩)
    rw [h8] at e1 e2
    simp only [if_true]
    exact ⟨_, e1, rfl, k.treemap, k.dv, k.dvsize, k.top, k.topsize, hlow e3, e2, hmem e3⟩
  | false =>
    obtain ⟨m', e1, e2, e3⟩ := unlinkLarge_links v hs k.links k.treemap (p := p) (s := s) ((v.tree_mem _ _ _).2 ⟨hp, hsm, rfl, hdv⟩)
    simp only [Bool.false_eq_true, if_false]
    exact ⟨_, e1, k.smallmap, rfl, k.dv, k.dvsize, k.top, k.topsize, hlow e3, e2, hmem e3⟩

/-! ## Giving chunks back -/

theorem insert_dv (b : Bins) (p s : Nat) : (b.insert p s).dv = b.dv ∧ (b.insert p s).dvsize = b.dvsize := by
  unfold Bins.insert; split <;> exact ⟨rfl, rfl⟩

theorem update_none {p q s : Nat} (h : Function.update F p none q = some s) : q ≠ p ∧ F q = some s := by
  by_cases e : q = p
  · subst e; simp at h
  · rw [Function.update_of_ne e] at h; exact ⟨e, h⟩

/-- second half of `mspace_free` and `dispose_chunk`; `e`: the end of the chunk that results -/
theorem forward_sim {p s nx e : Nat} (v : BInv F t.bins) (hs : Sep base F) (k : Sim base G D L t)
    (hz : ∀ q s', F q = some s' → t.bins.dv ≠ some q → chunksize t.mem q = s')
    (hd1 : ∀ q s', F q = some s' → t.bins.dv ≠ some q → ∀ x, q + 16 ≤ x → x < q + s' → D x)
    (hd2 : ∀ q s', F q = some s' → t.bins.dv ≠ some q → ∀ x, q + 8 ≤ x → x < q + 16 → ¬D x)
    (hnx : nx = p + s) (h16 : 16 ∣ s) (h32 : 32 ≤ s) (hlt : first base + nx < 2 ^ 64)
    (hp : ∀ q z, F q = some z → t.bins.dv ≠ some q → nx ≤ q ∨ q + z ≤ p) (hd3 : ∀ x, nx + 8 ≤ x → x < nx + 16 → ¬D x)
    (hfree : cinuse t.mem nx = false → nx ≠ t.top → t.bins.dv ≠ some nx → F nx = some (chunksize t.mem nx) ∧ nx + chunksize t.mem nx ≤ e)
    (huse : cinuse t.mem nx = true → ∀ q z, F q = some z → t.bins.dv ≠ some q → nx ≤ q → nx + 16 ≤ q) (he : nx ≤ e) :
    ∃ L', forward base L (first base + p) s (first base + nx) = some L' ∧ Sim base G (fun x => D x ∨ (p + 16 ≤ x ∧ x < e)) L' (Tag.forward t p s nx) := by
  have hci : cinuse L.mem (first base + nx) = cinuse t.mem nx := by
    rw [← cinuse_view]; unfold cinuse; rw [k.mem.head hd3]
  have hcs : chunksize L.mem (first base + nx) = chunksize t.mem nx := by
    rw [← chunksize_view]; unfold chunksize; rw [k.mem.head hd3]
  have hDD : ∀ x, D x → D x ∨ (p + 16 ≤ x ∧ x < e) := fun x h => .inl h
  -- sizes in front of the chunks in bins
  have hzv : ∀ (m' : Mem), Agree D m' t.mem → ∀ q s', F q = some s' → t.bins.dv ≠ some q → chunksize m' q = s' := by
    intro m' h q s' h1 h2
    rw [← hz q s' h1 h2]
    unfold chunksize
    rw [h.head (hd2 q s' h1 h2)]
  unfold forward Tag.forward
  rw [hci]
  cases hc : cinuse t.mem nx with
  | false =>
    simp only [if_true]
    by_cases htop : nx = t.top
    · rw [if_pos (by rw [k.top, htop]), if_pos htop]
      refine ⟨_, rfl, ?_⟩
      have hm : Sim base G (fun x => D x ∨ (p + 16 ≤ x ∧ x < e)) { L with mem := st L.mem (first base + p + 8) ((L.topsize + s) ||| 1) }
          { t with mem := st t.mem (p + 8) ((t.topsize + s) ||| 1) } := by
        refine k.setMem v (fun y hy => st_of_ne (by omega)) (fun q z h1 h2 y h3 h4 => st_of_ne ?_) ?_
        · have := hp q z h1 h2; omega
        · rw [Nat.add_assoc, view_st, k.topsize]
          exact ((k.mem.st _ _).mono hDD)
      by_cases hd : t.bins.dv = some p
      · have hd' : first base + p = L.dv := by rw [k.dv]; exact encDv_iff.2 hd
        simp only [if_pos hd, if_pos hd']
        exact ⟨hm.smallmap, hm.treemap, rfl, rfl, rfl, by rw [k.topsize], hm.low, ⟨hm.links.small, hm.links.slot, hm.links.tree⟩, hm.mem⟩
      · have hd' : ¬first base + p = L.dv := by rw [k.dv, encDv_iff]; exact hd
        simp only [if_neg hd, if_neg hd']
        exact ⟨hm.smallmap, hm.treemap, hm.dv, hm.dvsize, rfl, by rw [k.topsize], hm.low, hm.links, hm.mem⟩
    · rw [if_neg (by rw [k.top]; omega), if_neg htop]
      by_cases hd : t.bins.dv = some nx
      · rw [if_pos (by rw [k.dv]; exact encDv_iff.2 hd), if_pos hd]
        refine ⟨_, rfl, ?_⟩
        have hF := v.dv _ hd
        have hm : Sim base G (fun x => D x ∨ (p + 16 ≤ x ∧ x < e)) { L with mem := setFree L.mem (first base + p) (L.dvsize + s) }
            { t with mem := setFree t.mem p (t.bins.dvsize + s) } := by
          refine k.setMem v (fun y hy => Tag.setFree_ne (by omega) (by omega)) (fun q z h1 h2 y h3 h4 => ?_) ?_
          · rw [k.dvsize]
            have h5 := hp q z h1 h2
            have h6 := hs.sep nx _ q z hF h1
            have : nx ≠ q := by rintro rfl; exact h2 hd
            have := v.size q z h1
            exact Tag.setFree_ne (by omega) (by omega)
          · rw [view_setFree, k.dvsize]
            exact ((k.mem.setFree _ _).mono hDD)
        exact ⟨hm.smallmap, hm.treemap, rfl, by simp only; rw [k.dvsize], hm.top, hm.topsize, hm.low, ⟨hm.links.small, hm.links.slot, hm.links.tree⟩, hm.mem⟩
      · rw [if_neg (by rw [k.dv, encDv_iff]; exact hd), if_neg hd]
        obtain ⟨hF, hE⟩ := hfree hc htop hd
        rw [hcs]
        generalize chunksize t.mem nx = n at *
        obtain ⟨L1, e1, k1⟩ := unlinkChunk_sim v hs k hF hd hd1
        rw [e1]
        simp only [Option.bind_some]
        have v1 := v.unlink hF hd
        have hn := v.size nx n hF
        have hap : ∀ q z, Function.update F nx none q = some z → t.bins.dv ≠ some q → p + (s + n) ≤ q ∨ q + z ≤ p := by
          intro q z h1 h2
          obtain ⟨h3, h4⟩ := update_none h1
          have := hp q z h4 h2
          have := hs.sep nx n q z hF h4
          have := v.size q z h4
          omega
        have hs1 : Sep base (Function.update F nx none) :=
          ⟨fun p s q s' h1 h2 => hs.sep p s q s' (update_none h1).2 (update_none h2).2, fun p s h1 => hs.lt p s (update_none h1).2⟩
        have hdvs := Dl.unlink_dv t.bins nx n
        have hm : Sim base G D { L1 with mem := setFree L1.mem (first base + p) (s + n) }
            { t with bins := t.bins.unlink nx n, mem := setFree t.mem p (s + n) } := by
          refine k1.setMem v1 (fun y hy => Tag.setFree_ne (by omega) (by omega)) (fun q z h1 h2 y h3 h4 => ?_) ?_
          · simp only at h2
            rw [hdvs.1] at h2
            have := hap q z h1 h2
            exact Tag.setFree_ne (by omega) (by omega)
          · rw [view_setFree]
            exact k1.mem.setFree _ _
        have hdL : (first base + p = L1.dv) ↔ (t.bins.unlink nx n).dv = some p := by rw [k1.dv]; exact encDv_iff
        by_cases hdp : (t.bins.unlink nx n).dv = some p
        · rw [if_pos (hdL.2 hdp), if_pos hdp]
          refine ⟨_, rfl, ?_⟩
          have hm := hm.mono hDD
          exact ⟨hm.smallmap, hm.treemap, hm.dv, rfl, hm.top, hm.topsize, hm.low, ⟨hm.links.small, hm.links.slot, hm.links.tree⟩, hm.mem⟩
        · rw [if_neg (fun h => hdp (hdL.1 h)), if_neg hdp]
          have hlt' := hs.lt nx n hF
          refine insertChunk_sim (t := { t with bins := t.bins.unlink nx n, mem := setFree t.mem p (s + n) }) v1 hs1 hm ?_ (by omega) (by omega) (by omega) ?_ hDD ?_ ?_
          · intro q s' h1 h2
            simp only at h2
            rw [hdvs.1] at h2
            obtain ⟨h3, h4⟩ := update_none h1
            have := hap q s' h1 h2
            have := (v.size q s' h4).2
            have hq := hzv _ k1.mem q s' h4 h2
            rw [← hq, chunksize_view]
            unfold chunksize head
            simp only
            rw [ld_congr (fun x h1 h2 => Tag.setFree_ne (m := L1.mem) (p := first base + p) (s := s + n) (by omega) (by omega))]
          · intro q s' h1 h2
            simp only at h2
            rw [hdvs.1] at h2
            exact hap q s' h1 h2
          · intro q s' h1 h2 x h3 h4
            simp only at h2
            rw [hdvs.1] at h2
            exact .inl (hd1 q s' (update_none h1).2 h2 x h3 h4)
          · intro x h1 h2
            exact .inr ⟨h1, by omega⟩
  | true =>
    simp only [Bool.true_eq_false, if_false]
    have hap : ∀ q z, F q = some z → t.bins.dv ≠ some q → nx + 16 ≤ q ∨ q + z ≤ p := fun q z h1 h2 => by
      have := hp q z h1 h2
      have := huse hc q z h1 h2
      omega
    have hm : Sim base G D { L with mem := setFreeWith L.mem (first base + p) s (first base + nx) } { t with mem := setFreeWith t.mem p s nx } := by
      refine k.setMem v (fun y hy => ?_) (fun q z h1 h2 y h3 h4 => ?_) ?_
      · unfold setFreeWith
        rw [Tag.setFree_ne (by omega) (by omega), Tag.clearPinuse_ne (by omega)]
      · have := hap q z h1 h2
        unfold setFreeWith
        rw [Tag.setFree_ne (by omega) (by omega), Tag.clearPinuse_ne (by omega)]
      · rw [view_setFreeWith]
        exact k.mem.setFreeWith hd3
    refine insertChunk_sim (t := { t with mem := setFreeWith t.mem p s nx }) v hs hm ?_ h16 h32 (by omega) ?_ hDD ?_ ?_
    · intro q s' h1 h2
      have := hap q s' h1 h2
      have hq32 := (v.size q s' h1).2
      have hq := hzv _ k.mem q s' h1 h2
      rw [← hq, chunksize_view]
      unfold chunksize head
      simp only
      rw [ld_congr (m := L.mem)]
      intro x h1 h2
      unfold setFreeWith
      rw [Tag.setFree_ne (by omega) (by omega), Tag.clearPinuse_ne (by omega)]
    · intro q s' h1 h2
      have := hp q s' h1 h2
      omega
    · intro q s' h1 h2 x h3 h4
      exact .inl (hd1 q s' h1 h2 x h3 h4)
    · intro x h1 h2
      exact .inr ⟨h1, by omega⟩

end

end Verif.Lnk
