import Verif.Lnk.Sim
/-!
# Giving chunks back, with links
-/
namespace Verif.Lnk
open Heap (Chunk Use total total_append NotBoth back fwd)
open Dl (Tree Bins BInv fmap Pos fmap_append fmap_bound fmap_at_free find_of_fmap prevFree prevFree_some prevFree_none isSmall)
open Tag (Mem CS ld st ld_congr st_of_ne chunksize cinuse pinuse inuseBits prevFoot head setFree setFreeWith setInuse
  InBins Scratch At Siz Lay endOf at_cons at_append at_mid at_left at_right siz_append siz_cons lay_append head_flags inUse inUse_lt lastUse lastUse_lt OK)

/-! ## Free bytes -/

/-- bytes of free chunks, but not their headers, and bytes behind the header of `top`; the heap has `N` bytes -/
def Open (N : Nat) (cs : List Chunk) (x : Nat) : Prop := (∃ q z, fmap 0 cs q = some z ∧ q + 16 ≤ x ∧ x < q + z) ∨ (total cs + 16 ≤ x ∧ x < N)

theorem siz_pos {cs : List Chunk} (h : Siz cs) : Pos cs := fun c hc => (h c hc).2

theorem fmap_iff {cs : List Chunk} (h : Pos cs) {q z : Nat} : fmap 0 cs q = some z ↔ At 0 cs q z .free := by
  constructor
  · intro hf
    obtain ⟨l, r, e⟩ := find_of_fmap h hf
    obtain ⟨e1, e2⟩ := Heap.find_some e
    exact ⟨l, r, e1, e2⟩
  · rintro ⟨l, r, rfl, rfl⟩
    rw [Nat.zero_add]
    exact fmap_at_free (Dl.pos_append.1 h).1

theorem bins_of_fmap {F : Nat → Option Nat} {b : Bins} (v : BInv F b) {q z : Nat} (h : F q = some z) : InBins b q z := by
  by_cases hd : b.dv = some q
  · have := v.dv _ hd
    rw [h] at this
    injection this with this
    exact .inl ⟨hd, this⟩
  · obtain ⟨z1, z2⟩ := v.size q z h
    cases hsm : isSmall z with
    | true =>
      have hlt : z / 8 < 32 := by simpa [isSmall] using hsm
      have h8 : 8 * (z / 8) = z := by omega
      exact .inr (.inl ⟨z / 8, (v.small_mem _ _).2 ⟨by rw [h8]; exact h, hlt, hd⟩, h8.symm⟩)
    | false => exact .inr (.inr ⟨_, (v.tree_mem _ _ _).2 ⟨h, hsm, rfl, hd⟩⟩)

theorem scratch_iff {t : CS} {cs : List Chunk} (v : BInv (fmap 0 cs) t.bins) (htop : t.top = total cs) {x : Nat} : Scratch t x ↔ Open (t.top + t.topsize) cs x := by
  unfold Scratch Open
  rw [htop]
  refine or_congr ⟨?_, ?_⟩ Iff.rfl
  · rintro ⟨q, z, h, h1⟩
    exact ⟨q, z, Tag.fmap_of_bins v h, h1⟩
  · rintro ⟨q, z, h, h1⟩
    exact ⟨q, z, bins_of_fmap v h, h1⟩

theorem fmap_side {a c : List Chunk} {q z : Nat} (h : fmap 0 (a ++ c) q = some z) : q + z ≤ total a ∨ total a ≤ q := by
  rw [fmap_append] at h
  cases ha : fmap 0 a q with
  | some y =>
    rw [ha] at h
    simp at h
    subst h
    have := fmap_bound ha
    omega
  | none =>
    rw [ha] at h
    simp only [Option.none_or] at h
    have := fmap_bound h
    omega

/-- headers at the boundaries of chunks are not free bytes -/
theorem open_gap {N : Nat} {a c : List Chunk} {x : Nat} (h1 : total a ≤ x) (h2 : x < total a + 16) : ¬Open N (a ++ c) x := by
  rintro (⟨q, z, h3, h4, h5⟩ | ⟨h3, -⟩)
  · have := fmap_side h3
    omega
  · rw [total_append] at h3
    omega

theorem open_at {N : Nat} {cs : List Chunk} (hs : Siz cs) {p s : Nat} {u : Use} (ha : At 0 cs p s u) {x : Nat} (h1 : p ≤ x) (h2 : x < p + 16) : ¬Open N cs x := by
  obtain ⟨l, r, rfl, rfl⟩ := ha
  exact open_gap (by omega) (by omega)

theorem lay_size {m : Mem} {t : Nat} {cs : List Chunk} (hs : Siz cs) (hy : Lay m t 0 1 cs) {q z : Nat} (h : fmap 0 cs q = some z) : chunksize m q = z := by
  obtain ⟨l, r, rfl, rfl⟩ := (fmap_iff (siz_pos hs)).1 h
  have := (siz_cons.1 (siz_append.1 hs).2).1.1
  exact (head_flags ((lay_append l _ 0 1).1 hy).2.1 (by simp only at this ⊢; omega) (lastUse_lt (by omega) l) (inUse_lt _)).2.2.2

theorem sep_of {base : Nat} {cs : List Chunk} (hs : Siz cs) (hlt : first base + total cs < 2 ^ 64) : Sep base (fmap 0 cs) := by
  refine ⟨fun p s q s' h1 h2 => ?_, fun p s h => ?_⟩
  · exact Tag.at_apart hs ((fmap_iff (siz_pos hs)).1 h1) ((fmap_iff (siz_pos hs)).1 h2)
  · have := fmap_bound h
    omega

/-- free bytes stay free, and the chunk given back becomes free -/
theorem fwd_open {l r : List Chunk} {s t x N : Nat} (hN : total l + s + total r + t ≤ N) (hl : Siz l) (hr : Siz r) (hs : 16 ∣ s) (h0 : 0 < s)
    (h : (∃ q z, (At 0 l q z .free ∨ At (total l + s) r q z .free) ∧ q + 16 ≤ x ∧ x < q + z) ∨ (total l + s + total r + 16 ≤ x ∧ x < N) ∨
      (total l + 16 ≤ x ∧ x < endOf (total l + s) r)) : Open N (fwd l s r (some t)).chunks x := by
  cases r with
  | nil =>
    rcases h with ⟨q, z, h | ⟨a, b, e, -⟩, h1, h2⟩ | h | h
    · exact .inl ⟨q, z, (fmap_iff (siz_pos hl)).2 h, h1, h2⟩
    · simp at e
    · right; simp only [fwd, total] at h hN ⊢; omega
    · right; simp only [fwd, endOf, total] at h hN ⊢; omega
  | cons c r =>
    obtain ⟨n, w⟩ := c
    obtain ⟨⟨n1, n2⟩, hr'⟩ := siz_cons.1 hr
    simp only at n1 n2
    cases w with
    | free =>
      have hz : Siz (l ++ ⟨s + n, .free⟩ :: r) := siz_append.2 ⟨hl, siz_cons.2 ⟨⟨by simp only; omega, by simp only; omega⟩, hr'⟩⟩
      have key : ∀ q z, At 0 (l ++ ⟨s + n, .free⟩ :: r) q z .free → q + 16 ≤ x → x < q + z → Open N (fwd l s (⟨n, .free⟩ :: r) (some t)).chunks x :=
        fun q z h h1 h2 => .inl ⟨q, z, (fmap_iff (siz_pos hz)).2 h, h1, h2⟩
      have hme : At 0 (l ++ ⟨s + n, .free⟩ :: r) (total l) (s + n) .free := at_right (at_cons.2 (.inl ⟨rfl, rfl⟩))
      rcases h with ⟨q, z, h | h, h1, h2⟩ | h | h
      · exact key q z (at_left h) h1 h2
      · rcases at_cons.1 h with ⟨e, e2⟩ | h
        · injection e2 with e2
          exact key _ _ hme (by omega) (by omega)
        · refine key q z (at_right (at_cons.2 (.inr ?_))) h1 h2
          simp only [Nat.add_assoc] at h ⊢; exact h
      · right; simp only [fwd, total_append, total] at h hN ⊢; omega
      · simp only [endOf] at h
        exact key _ _ hme (by omega) (by omega)
    | user w =>
      have hz : Siz (l ++ ⟨s, .free⟩ :: ⟨n, .user w⟩ :: r) := siz_append.2 ⟨hl, siz_cons.2 ⟨⟨hs, h0⟩, hr⟩⟩
      have key : ∀ q z, At 0 (l ++ ⟨s, .free⟩ :: ⟨n, .user w⟩ :: r) q z .free → q + 16 ≤ x → x < q + z → Open N (fwd l s (⟨n, .user w⟩ :: r) (some t)).chunks x :=
        fun q z h h1 h2 => .inl ⟨q, z, (fmap_iff (siz_pos hz)).2 h, h1, h2⟩
      rcases h with ⟨q, z, h | h, h1, h2⟩ | h | h
      · exact key q z (at_left h) h1 h2
      · exact key q z (at_right (at_cons.2 (.inr h))) h1 h2
      · right; simp only [fwd, total_append, total] at h hN ⊢; omega
      · simp only [endOf] at h
        exact key _ _ (at_right (at_cons.2 (.inl ⟨rfl, rfl⟩))) (by omega) (by omega)
    | dead =>
      have hz : Siz (l ++ ⟨s, .free⟩ :: ⟨n, .dead⟩ :: r) := siz_append.2 ⟨hl, siz_cons.2 ⟨⟨hs, h0⟩, hr⟩⟩
      have key : ∀ q z, At 0 (l ++ ⟨s, .free⟩ :: ⟨n, .dead⟩ :: r) q z .free → q + 16 ≤ x → x < q + z → Open N (fwd l s (⟨n, .dead⟩ :: r) (some t)).chunks x :=
        fun q z h h1 h2 => .inl ⟨q, z, (fmap_iff (siz_pos hz)).2 h, h1, h2⟩
      rcases h with ⟨q, z, h | h, h1, h2⟩ | h | h
      · exact key q z (at_left h) h1 h2
      · exact key q z (at_right (at_cons.2 (.inr h))) h1 h2
      · right; simp only [fwd, total_append, total] at h hN ⊢; omega
      · simp only [endOf] at h
        exact key _ _ (at_right (at_cons.2 (.inl ⟨rfl, rfl⟩))) (by omega) (by omega)

theorem dispose_open {l r : List Chunk} {s v t x N : Nat} (hN : total l + s + total r + t ≤ N) (hs : Siz (l ++ ⟨s, .user v⟩ :: r))
    (h : Open N (l ++ ⟨s, .user v⟩ :: r) x ∨ (total (back l s).1 + 16 ≤ x ∧ x < endOf (total l + s) r)) : Open N (Heap.dispose l s r (some t)).chunks x := by
  obtain ⟨hl, hr⟩ := siz_append.1 hs
  obtain ⟨⟨s1, s2⟩, hr⟩ := siz_cons.1 hr
  simp only at s1 s2
  have hle := Tag.le_endOf (total l + s) r
  have hsplit : Open N (l ++ ⟨s, .user v⟩ :: r) x → (∃ q z, (At 0 l q z .free ∨ At (total l + s) r q z .free) ∧ q + 16 ≤ x ∧ x < q + z) ∨ (total l + s + total r + 16 ≤ x ∧ x < N) := by
    rintro (⟨q, z, h, h1, h2⟩ | h)
    · rcases at_mid ((fmap_iff (siz_pos hs)).1 h) with h | ⟨-, e⟩ | h
      · exact .inl ⟨q, z, .inl h, h1, h2⟩
      · cases e
      · exact .inl ⟨q, z, .inr h, h1, h2⟩
    · right; simp only [total_append, total] at h; omega
  unfold Heap.dispose
  simp only
  cases hp : prevFree l with
  | none =>
    rw [prevFree_none hp] at h ⊢
    refine fwd_open hN hl hr s1 s2 ?_
    rcases h with h | h
    · rcases hsplit h with h | h
      · exact .inl h
      · exact .inr (.inl h)
    · exact .inr (.inr h)
  | some n =>
    obtain ⟨l0, rfl, hb⟩ := prevFree_some hp
    rw [hb] at h ⊢
    obtain ⟨hl0, hn⟩ := siz_append.1 hl
    obtain ⟨n1, n2⟩ := (siz_cons.1 hn).1
    simp only at n1 n2 h ⊢
    rw [show total (l0 ++ [(⟨n, .free⟩ : Chunk)]) = total l0 + n by rw [total_append]; rfl] at h hle hsplit hN
    refine fwd_open (by omega) hl0 hr (by omega) (by omega) ?_
    rw [← Nat.add_assoc]
    rcases h with h | h
    · rcases hsplit h with ⟨q, z, h | h, h1, h2⟩ | h
      · rcases at_append.1 h with h | h
        · exact .inl ⟨q, z, .inl h, h1, h2⟩
        · rw [Nat.zero_add] at h
          rcases at_cons.1 h with ⟨e, e2⟩ | ⟨a, b, e, -⟩
          · injection e2 with e2
            exact .inr (.inr (by omega))
          · simp at e
      · exact .inl ⟨q, z, .inr h, h1, h2⟩
      · exact .inr (.inl (by omega))
    · exact .inr (.inr h)

/-! ## `dispose_chunk` -/

section
variable {base : Nat} {L : State} {t : CS} {G : Mem}

theorem fwd_chunk {N : Nat} {k r : List Chunk} {F : Nat → Option Nat} {p s : Nat} (hs : Siz (k ++ r)) (hy : Lay t.mem t.topsize 0 1 (k ++ r)) (ht : 16 ∣ t.topsize)
    (htop : t.top = total k + total r) (hlt : first base + total k + total r < 2 ^ 64) (v : BInv F t.bins)
    (hF : ∀ q z, F q = some z → fmap 0 (k ++ r) q = some z) (hnx : F (total k) = fmap 0 (k ++ r) (total k)) (sim : Sim base G (Open N (k ++ r)) L t)
    (hp : total k = p + s) (h16 : 16 ∣ s) (h32 : 32 ≤ s) (hap : ∀ q z, F q = some z → t.bins.dv ≠ some q → total k ≤ q ∨ q + z ≤ p) :
    ∃ L', forward base L (first base + p) s (first base + total k) = some L' ∧
      Sim base G (fun x => Open N (k ++ r) x ∨ (p + 16 ≤ x ∧ x < endOf (total k) r)) L' (Tag.forward t p s (total k)) := by
  have hs0 := sep_of (base := base) hs (by rw [total_append]; omega)
  have hs1 : Sep base F := ⟨fun p s q s' h1 h2 => hs0.sep p s q s' (hF _ _ h1) (hF _ _ h2), fun p s h => hs0.lt p s (hF _ _ h)⟩
  obtain ⟨hk, hr⟩ := siz_append.1 hs
  have hy2 := ((lay_append k r 0 1).1 hy).2
  rw [Nat.zero_add] at hy2
  refine forward_sim v hs1 sim (fun q z h _ => lay_size hs hy (hF _ _ h)) (fun q z h _ x h1 h2 => .inl ⟨q, z, hF _ _ h, h1, h2⟩) ?_ hp h16 h32 (by omega) hap
    (fun x h1 h2 => open_gap (by omega) (by omega)) ?_ ?_ (Tag.le_endOf _ _)
  · intro q z h _ x h1 h2
    exact open_at hs ((fmap_iff (siz_pos hs)).1 (hF _ _ h)) (by omega) (by omega)
  · intro hc htp hd
    rw [hnx]
    cases r with
    | nil => simp only [total] at htop; omega
    | cons d r =>
      obtain ⟨n, u⟩ := d
      have hn := (siz_cons.1 hr).1
      simp only at hn
      obtain ⟨-, e2, -, e4⟩ := head_flags hy2.1 (by simp only; omega) (lastUse_lt (by omega) k) (inUse_lt _)
      rw [hc] at e2
      rw [e4]
      cases u with
      | free => exact ⟨fmap_at_free (siz_pos hk), Nat.le_refl _⟩
      | user q => simp [inUse] at e2
      | dead => simp [inUse] at e2
  · intro hc q z h _ hq
    cases r with
    | nil =>
      have hy2 : ld t.mem (total k + 8) = t.topsize + lastUse 1 k := hy2
      obtain ⟨-, e2, -, -⟩ := head_flags (s := t.topsize) (b := lastUse 1 k) (u := 0) (by omega) (by omega) (lastUse_lt (by omega) k) (by omega) (p := total k) (m := t.mem)
      rw [hc] at e2
      simp at e2
    | cons d r =>
      obtain ⟨n, u⟩ := d
      have hn := (siz_cons.1 hr).1
      simp only at hn
      obtain ⟨-, e2, -, e4⟩ := head_flags hy2.1 (by simp only; omega) (lastUse_lt (by omega) k) (inUse_lt _)
      rw [hc] at e2
      have h1 : At 0 (k ++ ⟨n, u⟩ :: r) (total k) n u := at_right (at_cons.2 (.inl ⟨rfl, rfl⟩))
      have h2 := (fmap_iff (siz_pos hs)).1 (hF _ _ h)
      have h3 := Tag.at_apart hs h1 h2
      have h4 : q ≠ total k := by
        rintro rfl
        have := (Tag.at_unique hs h1 h2).2
        subst this
        simp [inUse] at e2
      have := v.size q z h
      omega

/-- `dispose_chunk` and `mspace_free` follow no wrong link -/
theorem dispose_lnk {l r : List Chunk} {s q : Nat} (chk : Bool) (hs : Siz (l ++ ⟨s, .user q⟩ :: r)) (hc : l.IsChain NotBoth) (ht : 16 ∣ t.topsize)
    (h64 : total l + s + total r + t.topsize + 8 < 2 ^ 64) (hy : Lay t.mem t.topsize 0 1 (l ++ ⟨s, .user q⟩ :: r))
    (htop : t.top = total l + s + total r) (ib : BInv (fmap 0 (l ++ ⟨s, .user q⟩ :: r)) t.bins) (h32 : 32 ≤ s)
    (hlt : first base + (total l + s + total r) < 2 ^ 64) (sim : Sim base G (Scratch t) L t) :
    ∃ L' t', dispose base chk L (first base + total l) s = some L' ∧ Tag.dispose chk t (total l) s = some t' ∧ Sim base G (Scratch t') L' t' := by
  have htop' : t.top = total (l ++ ⟨s, .user q⟩ :: r) := by rw [htop, total_append]; simp only [total]; omega
  obtain ⟨hsl, hsr⟩ := siz_append.1 hs
  obtain ⟨⟨s1, s2⟩, hsr⟩ := siz_cons.1 hsr
  simp only at s1 s2
  obtain ⟨t', e, rp, hb, -⟩ := Tag.dispose_sim chk hs hc ht h64 hy htop ib
  have ib' : BInv (fmap 0 (Heap.dispose l s r (some t.topsize)).chunks) t'.bins := by
    rw [hb]; exact Dl.dispose_spec ib (siz_pos hsl) ⟨s1, h32⟩ (siz_pos hsr)
  suffices hgo : ∃ L' t'', dispose base chk L (first base + total l) s = some L' ∧ Tag.dispose chk t (total l) s = some t'' ∧
      Sim base G (fun x => Open (t.top + t.topsize) (l ++ ⟨s, .user q⟩ :: r) x ∨ (total (back l s).1 + 16 ≤ x ∧ x < endOf (total l + s) r)) L' t'' by
    obtain ⟨L', t'', g1, g2, g3⟩ := hgo
    rw [e] at g2
    injection g2 with g2
    subst g2
    have hcap := Heap.dispose_cap l s r (some t.topsize)
    unfold Heap.Heap.cap at hcap
    rw [rp.size, ← rp.top] at hcap
    simp only [Option.getD_some] at hcap
    refine ⟨L', t', g1, e, g3.mono (fun x hx => (scratch_iff ib' rp.top).2 ?_)⟩
    rw [hcap, ← htop]
    exact dispose_open (by rw [htop]) hs hx
  have sim : Sim base G (Open (t.top + t.topsize) (l ++ ⟨s, .user q⟩ :: r)) L t := sim.mono (fun x hx => (scratch_iff ib htop').1 hx)
  obtain ⟨hpre, hlay⟩ := (lay_append l _ 0 1).1 hy
  rw [Nat.zero_add] at hlay
  have hbl := lastUse_lt (b := 1) (by omega) l
  obtain ⟨f1, f2, f3, f4⟩ := head_flags hlay.1 (by simp only; omega) hbl (inUse_lt _)
  have hnx : pinuse t.mem (total l + s) = true := by
    have := Tag.lay_flags ht hsr (by simp [inUse]) hlay.2.2
    rw [this]; simp [inUse]
  -- the same list, split behind the chunk
  have hk : l ++ ⟨s, .user q⟩ :: r = (l ++ [⟨s, .user q⟩]) ++ r := by simp
  have htk : total (l ++ [(⟨s, .user q⟩ : Chunk)]) = total l + s := Dl.total_snoc
  have gapP : ∀ x, total l ≤ x → x < total l + 16 → ¬Open (t.top + t.topsize) (l ++ ⟨s, .user q⟩ :: r) x := fun x h1 h2 => open_gap h1 h2
  have gapN : ∀ x, total l + s ≤ x → x < total l + s + 16 → ¬Open (t.top + t.topsize) (l ++ ⟨s, .user q⟩ :: r) x := fun x h1 h2 => by
    rw [hk]; exact open_gap (by rw [htk]; exact h1) (by rw [htk]; exact h2)
  have hpf : head L.mem (first base + total l) = head t.mem (total l) := by
    rw [← head_view]; exact sim.mem.head (fun x h1 h2 => gapP x (by omega) (by omega))
  have hpn : head L.mem (first base + (total l + s)) = head t.mem (total l + s) := by
    rw [← head_view]; exact sim.mem.head (fun x h1 h2 => gapN x (by omega) (by omega))
  have hft : prevFoot L.mem (first base + total l) = prevFoot t.mem (total l) := by
    rw [← prevFoot_view]; exact sim.mem.ld (fun x h1 h2 => gapP x (by omega) (by omega))
  have e0 : first base + total l + s = first base + (total l + s) := by omega
  have hme : At 0 (l ++ ⟨s, .user q⟩ :: r) (total l) s (.user q) := at_right (at_cons.2 (.inl ⟨rfl, rfl⟩))
  have hap : ∀ x z, fmap 0 (l ++ ⟨s, .user q⟩ :: r) x = some z → total l + s ≤ x ∨ x + z ≤ total l := by
    intro x z h
    have h2 := (fmap_iff (siz_pos hs)).1 h
    rcases Tag.at_apart hs hme h2 with h3 | h3 | h3
    · subst h3
      have := (Tag.at_unique hs hme h2).2
      cases this
    · exact .inl h3
    · exact .inr h3
  -- the checks before the second half
  have hchk : ∀ (L1 : State) (t1 : CS) (p s' : Nat) (L' : State), p + s' = total l + s → 0 < s' →
      head L1.mem (first base + (total l + s)) = head t.mem (total l + s) → t1.mem = t.mem →
      forward base L1 (first base + p) s' (first base + (total l + s)) = some L' →
      forwardChk base chk L1 (first base + p) s' (first base + (total l + s)) = some L' ∧
      Tag.forwardChk chk t1 p s' (total l + s) = some (Tag.forward t1 p s' (total l + s)) := by
    intro L1 t1 p s' L' h1 h2 h3 h4 h5
    have h6 : pinuse L1.mem (first base + (total l + s)) = true := by rw [← hnx]; unfold pinuse; rw [h3]
    constructor
    · unfold forwardChk
      rw [h6, if_pos, h5]
      cases chk
      · exact decide_eq_true (show base ≤ first base + (total l + s) by unfold first; omega)
      · simp; omega
    · unfold Tag.forwardChk
      rw [h4, hnx, if_neg]
      have h7 : decide (p < total l + s) = true := decide_eq_true (by omega)
      rw [h7]; simp
  unfold dispose Tag.dispose
  simp only
  cases hpv : prevFree l with
  | none =>
    have hbk := prevFree_none hpv
    have hlast : lastUse 1 l = 1 := by
      cases hl : l.getLast? with
      | none => rw [List.getLast?_eq_none_iff.1 hl]; rfl
      | some d =>
        obtain ⟨ys, rfl⟩ := List.getLast?_eq_some_iff.1 hl
        rw [Tag.lastUse_snoc]
        obtain ⟨k, u⟩ := d
        cases u with
        | free =>
          exfalso
          rw [Tag.prevFree_free] at hpv
          cases hpv
        | user q => rfl
        | dead => rfl
    rw [hlast] at f1
    have f1 : pinuse t.mem (total l) = true := by rw [f1]; rfl
    have f1' : pinuse L.mem (first base + total l) = true := by rw [← f1]; unfold pinuse; rw [hpf]
    rw [if_pos f1, if_pos f1', hbk, e0]
    have hy' := hy
    rw [hk] at hy' hs
    obtain ⟨L', g1, g2⟩ := fwd_chunk (base := base) (L := L) (t := t) (k := l ++ [⟨s, .user q⟩]) (r := r) (F := fmap 0 (l ++ ⟨s, .user q⟩ :: r)) (p := total l) (s := s) hs hy' ht
      (by rw [htk]; omega) (by rw [htk]; omega) ib (fun x z h => by rw [← hk]; exact h) (by rw [← hk]) (by rw [← hk]; exact sim) htk s1 h32
      (fun x z h _ => by rw [htk]; exact hap x z h)
    rw [htk, ← hk] at g2
    rw [htk] at g1
    obtain ⟨j1, j2⟩ := hchk L t (total l) s L' rfl s2 hpn rfl g1
    exact ⟨L', _, j1, j2, g2⟩
  | some n =>
    obtain ⟨l0, rfl, hbk⟩ := prevFree_some hpv
    have htl : total (l0 ++ [(⟨n, .free⟩ : Chunk)]) = total l0 + n := by rw [total_append]; rfl
    obtain ⟨hsl0, hsn⟩ := siz_append.1 hsl
    obtain ⟨n1, n2⟩ := (siz_cons.1 hsn).1
    simp only at n1 n2
    obtain ⟨hpre0, hpren⟩ := (Tag.pre_append l0 _ 0 1).1 hpre
    have hfoot : ld t.mem (total l0 + n) = n := by
      have := hpren.2.1 rfl
      rwa [Nat.zero_add] at this
    have hfoot' : prevFoot t.mem (total (l0 ++ [⟨n, .free⟩])) = n := by unfold prevFoot; rw [htl]; exact hfoot
    rw [Tag.lastUse_snoc] at f1 f3
    simp only [inUse] at f1 f3
    have f1 : pinuse t.mem (total (l0 ++ [⟨n, .free⟩])) = false := by rw [f1]; rfl
    have f1' : pinuse L.mem (first base + total (l0 ++ [⟨n, .free⟩])) = false := by rw [← f1]; unfold pinuse; rw [hpf]
    have f3' : inuseBits L.mem (first base + total (l0 ++ [⟨n, .free⟩])) = 0 + 2 * 1 := by rw [← f3]; unfold inuseBits; rw [hpf]
    have f3 : ¬inuseBits t.mem (total (l0 ++ [⟨n, .free⟩])) = 0 := by rw [f3]; omega
    have f3' : ¬inuseBits L.mem (first base + total (l0 ++ [⟨n, .free⟩])) = 0 := by rw [f3']; omega
    simp only [f1, f1', Bool.false_eq_true, if_false]
    rw [if_neg f3, if_neg f3', hft, hfoot', hbk, e0]
    have e1 : total (l0 ++ [⟨n, .free⟩]) - n = total l0 := by omega
    have e1' : first base + total (l0 ++ [⟨n, .free⟩]) - n = first base + total l0 := by omega
    have g1 : ¬total (l0 ++ [⟨n, .free⟩]) < n := by omega
    have g2 : ¬first base + total (l0 ++ [⟨n, .free⟩]) < n := by omega
    have g3 : ¬first base + total l0 < base := by unfold first; omega
    rw [e1, e1']
    simp only [g1, g2, g3, if_false]
    have hFn : fmap 0 (l0 ++ [⟨n, .free⟩] ++ ⟨s, .user q⟩ :: r) (total l0) = some n := by
      rw [List.append_assoc]; exact fmap_at_free (siz_pos hsl0)
    have hapn : ∀ x z, fmap 0 (l0 ++ [⟨n, .free⟩] ++ ⟨s, .user q⟩ :: r) x = some z → x ≠ total l0 → total (l0 ++ [⟨n, .free⟩]) + s ≤ x ∨ x + z ≤ total l0 := by
      intro x z h hx
      have h1 := hap x z h
      have h2 := (sep_of (base := base) hs (by rw [← htop']; omega)).sep _ _ _ _ hFn h
      have := (ib.size x z h).2
      omega
    have hy' := hy
    have hs' := hs
    rw [hk] at hy' hs'
    by_cases hd : t.bins.dv = some (total l0)
    · have hd' : first base + total l0 = L.dv := by rw [sim.dv]; exact encDv_iff.2 hd
      rw [if_neg (show ¬(first base + total l0 ≠ L.dv) from fun h => h hd'), if_neg (show ¬(t.bins.dv ≠ some (total l0)) from fun h => h hd)]
      have hib : inuseBits L.mem (first base + (total (l0 ++ [⟨n, .free⟩]) + s)) = inuseBits t.mem (total (l0 ++ [⟨n, .free⟩]) + s) := by unfold inuseBits; rw [hpn]
      rw [hib]
      by_cases h3 : inuseBits t.mem (total (l0 ++ [⟨n, .free⟩]) + s) = 3
      · rw [if_pos h3, if_pos h3]
        refine ⟨_, _, rfl, rfl, ?_⟩
        -- the next chunk is in use
        have hnf : ∀ x z, fmap 0 (l0 ++ [⟨n, .free⟩] ++ ⟨s, .user q⟩ :: r) x = some z → total (l0 ++ [⟨n, .free⟩]) + s ≤ x → total (l0 ++ [⟨n, .free⟩]) + s + 16 ≤ x := by
          intro x z h hx
          cases r with
          | nil =>
            have := fmap_bound h
            have := (ib.size x z h).2
            simp only [total_append, total] at *
            omega
          | cons d r =>
            obtain ⟨k, u⟩ := d
            have hn := (siz_cons.1 hsr).1
            simp only at hn
            have a1 : At 0 (l0 ++ [⟨n, .free⟩] ++ ⟨s, .user q⟩ :: ⟨k, u⟩ :: r) (total (l0 ++ [⟨n, .free⟩]) + s) k u :=
              at_right (at_cons.2 (.inr (at_cons.2 (.inl ⟨rfl, rfl⟩))))
            have a2 := (fmap_iff (siz_pos hs)).1 h
            have h4 : x ≠ total (l0 ++ [⟨n, .free⟩]) + s := by
              rintro rfl
              have := (Tag.at_unique hs a1 a2).2
              subst this
              obtain ⟨-, -, g, -⟩ := head_flags hlay.2.2.1 (by simp only; omega) (inUse_lt _) (inUse_lt _)
              rw [g] at h3
              simp [inUse] at h3
            have := Tag.at_apart hs a1 a2
            have := (ib.size x z h).2
            omega
        have hm : Sim base G (Open (t.top + t.topsize) (l0 ++ [⟨n, .free⟩] ++ ⟨s, .user q⟩ :: r)) { L with mem := setFreeWith L.mem (first base + total l0) (n + s) (first base + (total (l0 ++ [⟨n, .free⟩]) + s)) }
            { t with mem := setFreeWith t.mem (total l0) (n + s) (total (l0 ++ [⟨n, .free⟩]) + s) } := by
          refine sim.setMem ib (fun y hy => ?_) (fun x z h1 h2 y h3 h4 => ?_) ?_
          · unfold setFreeWith
            rw [Tag.setFree_ne (by omega) (by omega), Tag.clearPinuse_ne (by omega)]
          · have h5 := hapn x z h1 (by rintro rfl; exact h2 hd)
            have h6 := hnf x z h1
            unfold setFreeWith
            rw [Tag.setFree_ne (by omega) (by omega), Tag.clearPinuse_ne (by omega)]
          · rw [view_setFreeWith]
            exact sim.mem.setFreeWith (fun x h1 h2 => gapN x (by omega) (by omega))
        have hm := hm.mono (D' := fun x => Open (t.top + t.topsize) (l0 ++ [⟨n, .free⟩] ++ ⟨s, .user q⟩ :: r) x ∨ (total l0 + 16 ≤ x ∧ x < endOf (total (l0 ++ [⟨n, .free⟩]) + s) r)) (fun x hx => .inl hx)
        exact ⟨hm.smallmap, hm.treemap, hm.dv, rfl, hm.top, hm.topsize, hm.low, ⟨hm.links.small, hm.links.slot, hm.links.tree⟩, hm.mem⟩
      · rw [if_neg h3, if_neg h3]
        obtain ⟨L', g1, g2⟩ := fwd_chunk (base := base) (L := L) (t := t) (k := l0 ++ [⟨n, .free⟩] ++ [⟨s, .user q⟩]) (r := r)
          (F := fmap 0 (l0 ++ [⟨n, .free⟩] ++ ⟨s, .user q⟩ :: r)) (p := total l0) (s := n + s) hs' hy' ht
          (by rw [htk]; omega) (by rw [htk]; omega) ib (fun x z h => by rw [← hk]; exact h) (by rw [← hk]) (by rw [← hk]; exact sim) (by rw [htk]; omega) (by omega) (by omega)
          (fun x z h h2 => by rw [htk]; exact hapn x z h (by rintro rfl; exact h2 hd))
        rw [htk, ← hk] at g2
        rw [htk] at g1
        obtain ⟨j1, j2⟩ := hchk L t (total l0) (n + s) L' (by omega) (by omega) hpn rfl g1
        exact ⟨L', _, j1, j2, g2⟩
    · have hd' : ¬first base + total l0 = L.dv := by rw [sim.dv, encDv_iff]; exact hd
      rw [if_pos hd, if_pos hd']
      obtain ⟨L1, u1, u2⟩ := unlinkChunk_sim ib (sep_of hs (by rw [← htop']; omega)) sim hFn hd (fun x z h _ y h1 h2 => .inl ⟨x, z, h, h1, h2⟩)
      rw [u1]
      simp only [Option.bind_some]
      have v1 := ib.unlink hFn hd
      have hne : total (l0 ++ [⟨n, .free⟩]) + s ≠ total l0 := by omega
      obtain ⟨L', g1, g2⟩ := fwd_chunk (base := base) (L := L1) (t := { t with bins := t.bins.unlink (total l0) n }) (k := l0 ++ [⟨n, .free⟩] ++ [⟨s, .user q⟩]) (r := r)
        (F := Function.update (fmap 0 (l0 ++ [⟨n, .free⟩] ++ ⟨s, .user q⟩ :: r)) (total l0) none) (p := total l0) (s := n + s) hs' hy' ht
        (by rw [htk]; simp only; omega) (by rw [htk]; omega) v1 (fun x z h => by rw [← hk]; exact (update_none h).2)
        (by rw [htk, Function.update_of_ne hne, ← hk]) (by rw [← hk]; exact u2) (by rw [htk]; omega) (by omega) (by omega)
        (fun x z h h2 => by rw [htk]; exact hapn x z (update_none h).2 (update_none h).1)
      rw [htk, ← hk] at g2
      rw [htk] at g1
      have hpn1 : head L1.mem (first base + (total (l0 ++ [⟨n, .free⟩]) + s)) = head t.mem (total (l0 ++ [⟨n, .free⟩]) + s) := by
        rw [← head_view]; exact u2.mem.head (fun x h1 h2 => gapN x (by omega) (by omega))
      obtain ⟨j1, j2⟩ := hchk L1 { t with bins := t.bins.unlink (total l0) n } (total l0) (n + s) L' (by omega) (by omega) hpn1 rfl g1
      exact ⟨L', _, j1, j2, g2⟩

/-- `set_inuse` -/
theorem Sim.setInuse {F : Nat → Option Nat} {D : Nat → Prop} {p s : Nat} (v : BInv F t.bins) (k : Sim base G D L t)
    (hd : ∀ q z, F q = some z → ∀ x, q + 16 ≤ x → x < q + z → D x) (g1 : ∀ x, p + 8 ≤ x → x < p + 16 → ¬D x) (g2 : ∀ x, p + s + 8 ≤ x → x < p + s + 16 → ¬D x) :
    Sim base G D { L with mem := Tag.setInuse L.mem (first base + p) s } { t with mem := Tag.setInuse t.mem p s } := by
  refine k.setMem v (fun y hy => Tag.setInuse_ne (by omega) (by omega)) (fun q z h1 _ y h3 h4 => ?_) ?_
  · have h5 := hd q z h1 (y - first base) (by omega) (by omega)
    refine Tag.setInuse_ne ?_ ?_
    · by_contra h6
      exact g1 _ (by omega) (by omega) h5
    · by_contra h6
      exact g2 _ (by omega) (by omega) h5
  · rw [view_setInuse]
    exact k.mem.setInuse g1 g2

theorem cut_lnk {l r : List Chunk} {nb rs u v b : Nat} (hl : Siz l) (hr : Siz r) (hn : 16 ∣ nb) (hn0 : 0 < nb) (hs : 16 ∣ rs) (h32 : 32 ≤ rs) (ht : 16 ∣ t.topsize)
    (hc : l.IsChain NotBoth) (h64 : total l + nb + rs + total r + t.topsize + 8 < 2 ^ 64) (hp : Tag.Pre t.mem 0 1 l) (hb : ld t.mem (total l + 8) % 2 = lastUse 1 l)
    (hb2 : b < 2) (hy : Lay t.mem t.topsize (total l + nb + rs) b r) (htop : t.top = total l + nb + rs + total r)
    (ib : BInv (fmap 0 ((l ++ [⟨nb, .user u⟩]) ++ ⟨rs, .user v⟩ :: r)) t.bins) (hlt : first base + (total l + nb + rs + total r) < 2 ^ 64)
    (sim : Sim base G (Scratch t) L t) :
    ∃ L' t', cut base L (first base + total l) nb rs = some L' ∧ Tag.cut t (total l) nb rs = some t' ∧ Sim base G (Scratch t') L' t' := by
  have hl1 : Siz (l ++ [⟨nb, .user u⟩]) := siz_append.2 ⟨hl, siz_cons.2 ⟨⟨hn, hn0⟩, fun c hc => by simp at hc⟩⟩
  have e1 : total (l ++ [⟨nb, .user u⟩]) = total l + nb := Dl.total_snoc
  have hlay : Lay (setInuse (setInuse t.mem (total l) nb) (total l + nb) rs) t.topsize 0 1 ((l ++ [⟨nb, .user u⟩]) ++ ⟨rs, .user v⟩ :: r) := by
    have := Tag.setInuse_lay (m := setInuse t.mem (total l) nb) (t := t.topsize) (u := v) (b := b) hl1 hr hs (by omega) ht (by omega) (Tag.setInuse_pre hl hn hn0 (by omega) hp hb)
      (by rw [e1, Tag.setInuse_next hn hn0, Tag.lastUse_snoc]; rfl) hb2 (Tag.lay_congr hr (fun x hx => Tag.setInuse_ne (by omega) (by omega)) (by rw [e1]; exact hy))
    rw [e1] at this
    exact this
  have hchain : (l ++ [(⟨nb, .user u⟩ : Chunk)]).IsChain NotBoth := by
    rw [Heap.isChain_mid]
    refine ⟨hc, List.isChain_nil, fun d _ h => by simp at h, by simp⟩
  have hsz : Siz ((l ++ [⟨nb, .user u⟩]) ++ ⟨rs, .user v⟩ :: r) := siz_append.2 ⟨hl1, siz_cons.2 ⟨⟨hs, by simp only; omega⟩, hr⟩⟩
  have htop' : t.top = total ((l ++ [⟨nb, .user u⟩]) ++ ⟨rs, .user v⟩ :: r) := by rw [total_append, e1]; simp only [total]; omega
  have hd : ∀ q z, fmap 0 ((l ++ [⟨nb, .user u⟩]) ++ ⟨rs, .user v⟩ :: r) q = some z → ∀ x, q + 16 ≤ x → x < q + z → Scratch t x :=
    fun q z h x h1 h2 => (scratch_iff ib htop').2 (.inl ⟨q, z, h, h1, h2⟩)
  have g1 : ∀ x, total l + 8 ≤ x → x < total l + 16 → ¬Scratch t x := fun x h1 h2 h => by
    have h := (scratch_iff ib htop').1 h
    rw [List.append_assoc] at h
    exact open_gap (by omega) (by omega) h
  have g2 : ∀ x, total l + nb + 8 ≤ x → x < total l + nb + 16 → ¬Scratch t x := fun x h1 h2 h =>
    open_gap (by omega) (by omega) ((scratch_iff ib htop').1 h)
  have g3 : ∀ x, total l + nb + rs + 8 ≤ x → x < total l + nb + rs + 16 → ¬Scratch t x := fun x h1 h2 h => by
    have h := (scratch_iff ib htop').1 h
    have e2 : total (l ++ [⟨nb, .user u⟩] ++ [⟨rs, .user v⟩]) = total l + nb + rs := by rw [Dl.total_snoc, e1]
    rw [show (l ++ [⟨nb, .user u⟩]) ++ ⟨rs, .user v⟩ :: r = (l ++ [⟨nb, .user u⟩] ++ [⟨rs, .user v⟩]) ++ r by simp] at h
    exact open_gap (by omega) (by omega) h
  have k1 := sim.setInuse ib hd g1 g2
  have k2 := Sim.setInuse (t := { t with mem := setInuse t.mem (total l) nb }) (p := total l + nb) (s := rs) ib k1 hd g2 g3
  have := dispose_lnk (base := base) (t := { t with mem := setInuse (setInuse t.mem (total l) nb) (total l + nb) rs }) false
    hsz hchain ht (by simp only; omega) hlay (by simp only; omega) ib h32 (by omega) k2
  rw [e1] at this
  unfold cut Tag.cut
  rw [Nat.add_assoc]
  exact this

theorem free_lnk {h : Heap.Heap} (ok : OK t h) (hlt : first base + h.cap < 2 ^ 64) (sim : Sim base G (Scratch t) L t) {p q : Nat} (hu : (p, q) ∈ Heap.users 0 h.chunks) :
    ∃ L' t', free base L (first base + p) = some L' ∧ Tag.free t p = some t' ∧ Sim base G (Scratch t') L' t' := by
  obtain ⟨l, s, r, hf⟩ := Heap.find_user ok.inv.wf.good hu
  obtain ⟨hc, hp⟩ := Heap.find_some hf
  rw [Nat.zero_add] at hp
  subst hp
  obtain ⟨s1, s5, s3, s4, ht, ht0, m1, htop, h64, hcap, hpre, hhead, hy, f3, f4, hb⟩ := ok.split hc
  have hsz := Tag.WF.siz ok.inv.wf
  have hlay := ok.rep.lay
  rw [hc] at hlay hsz
  have g32 : 32 ≤ s := by
    have := (ok.inv.wf.good _ (show (⟨s, .user q⟩ : Chunk) ∈ h.chunks by rw [hc]; simp)).2.2 q rfl
    have := Heap.need_ge q
    simp only at *
    omega
  have htop' : t.top = total (l ++ ⟨s, .user q⟩ :: r) := by rw [htop, total_append]; simp only [total]; omega
  obtain ⟨L', t', k1, k2, k3⟩ := dispose_lnk (base := base) true hsz m1 ht h64 hlay htop hb g32 (by omega) sim
  have hhd : head L.mem (first base + total l) = head t.mem (total l) := by
    rw [← head_view]; exact sim.mem.head (fun x h1 h2 h => open_gap (by omega) (by omega) ((scratch_iff hb htop').1 h))
  obtain ⟨-, hl2⟩ := (lay_append l _ 0 1).1 hlay
  rw [Nat.zero_add] at hl2
  obtain ⟨-, -, f3', -⟩ := head_flags hl2.1 (by simp only; omega) (lastUse_lt (by omega) l) (inUse_lt _)
  refine ⟨L', t', ?_, ?_, k3⟩
  · unfold free
    have e1 : inuseBits L.mem (first base + total l) = inuseBits t.mem (total l) := by unfold inuseBits; rw [hhd]
    have e2 : chunksize L.mem (first base + total l) = chunksize t.mem (total l) := by unfold chunksize; rw [hhd]
    rw [e1, e2, f4, if_neg, k1]
    rintro (h | h)
    · unfold first at h; omega
    · rw [f3'] at h; simp only [inUse] at h; omega
  · unfold Tag.free
    rw [if_neg (by rw [f3']; simp only [inUse]; omega), f4]
    exact k2

theorem trimEnd_lnk {h : Heap.Heap} (ok : OK t h) (hlt : first base + h.cap < 2 ^ 64) (sim : Sim base G (Scratch t) L t) {l r : List Chunk} {s req nb : Nat}
    (hc : h.chunks = l ++ ⟨s, .user req⟩ :: r) (hn : 16 ∣ nb) (hn0 : 32 ≤ nb) :
    ∃ L' t', trimEnd base L (first base + total l) nb = some L' ∧ Tag.trimEnd t (total l) nb = some t' ∧ Sim base G (Scratch t') L' t' := by
  obtain ⟨s1, s5, s3, s4, ht, ht0, m1, htop, h64, hcap, hpre, hhead, hy, f3, f4, hb⟩ := ok.split hc
  have htop' : t.top = total (l ++ ⟨s, .user req⟩ :: r) := by rw [htop, total_append]; simp only [total]; omega
  have hhd : head L.mem (first base + total l) = head t.mem (total l) := by
    rw [← head_view]; exact sim.mem.head (fun x h1 h2 h => open_gap (by omega) (by omega) ((scratch_iff hb htop').1 h))
  have e1 : inuseBits L.mem (first base + total l) = inuseBits t.mem (total l) := by unfold inuseBits; rw [hhd]
  have e2 : chunksize L.mem (first base + total l) = chunksize t.mem (total l) := by unfold chunksize; rw [hhd]
  unfold trimEnd Tag.trimEnd
  rw [e1, e2, if_neg f3, if_neg f3, f4]
  by_cases hm : nb + Heap.minChunk < s
  · simp only [if_pos hm]
    unfold Heap.minChunk at hm
    have hib := hb
    rw [Dl.fmap_cut (nb := nb) (req := req) (by omega)] at hib
    have e : total l + nb + (s - nb) = total l + s := by omega
    exact cut_lnk (base := base) (nb := nb) (rs := s - nb) (u := req) (b := 1) s1 s5 hn (by omega) (by omega) (by omega) ht m1 (by omega) hpre hhead
      (by omega) (by rw [e]; exact hy) (by omega) hib (by omega) sim
  · simp only [if_neg hm]
    exact ⟨L, t, rfl, rfl, sim⟩

theorem giveLead_lnk {h : Heap.Heap} (ok : OK t h) (hlt : first base + h.cap < 2 ^ 64) (sim : Sim base G (Scratch t) L t) {l r : List Chunk} {s q d : Nat}
    (hc : h.chunks = l ++ ⟨s, .user q⟩ :: r) (hd : 16 ∣ d) (hd32 : d = 0 ∨ 32 ≤ d) (hds : d < s) :
    ∃ L' t', giveLead base L (first base + total l) d = some L' ∧ Tag.giveLead t (total l) d = some t' ∧ Sim base G (Scratch t') L' t' := by
  obtain ⟨s1, s5, s3, s4, ht, ht0, m1, htop, h64, hcap, hpre, hhead, hy, f3, f4, hb⟩ := ok.split hc
  have htop' : t.top = total (l ++ ⟨s, .user q⟩ :: r) := by rw [htop, total_append]; simp only [total]; omega
  have hhd : head L.mem (first base + total l) = head t.mem (total l) := by
    rw [← head_view]; exact sim.mem.head (fun x h1 h2 h => open_gap (by omega) (by omega) ((scratch_iff hb htop').1 h))
  have e1 : inuseBits L.mem (first base + total l) = inuseBits t.mem (total l) := by unfold inuseBits; rw [hhd]
  have e2 : chunksize L.mem (first base + total l) = chunksize t.mem (total l) := by unfold chunksize; rw [hhd]
  unfold giveLead Tag.giveLead
  by_cases h0 : d = 0
  · simp only [if_pos h0]
    exact ⟨L, t, rfl, rfl, sim⟩
  · simp only [if_neg h0]
    rw [e1, e2, if_neg f3, if_neg f3, f4]
    have e : total l + d + (s - d) = total l + s := by omega
    have hsr : Siz (⟨s - d, .user 0⟩ :: r) := siz_cons.2 ⟨⟨by simp only; omega, by simp only; omega⟩, s5⟩
    have hib := hb
    rw [Dl.fmap_cut (nb := d) (req := 0) (by omega)] at hib
    have hsp : l ++ ⟨d, .user 0⟩ :: ⟨s - d, .user 0⟩ :: r = (l ++ [⟨d, .user 0⟩]) ++ ⟨s - d, .user 0⟩ :: r := by simp
    have htd : total (l ++ [(⟨d, .user 0⟩ : Chunk)]) = total l + d := Dl.total_snoc
    have htop2 : t.top = total ((l ++ [⟨d, .user 0⟩]) ++ ⟨s - d, .user 0⟩ :: r) := by rw [total_append, htd]; simp only [total]; omega
    have hdd : ∀ x z, fmap 0 ((l ++ [⟨d, .user 0⟩]) ++ ⟨s - d, .user 0⟩ :: r) x = some z → ∀ y, x + 16 ≤ y → y < x + z → Scratch t y :=
      fun x z h y h1 h2 => (scratch_iff hib htop2).2 (.inl ⟨x, z, h, h1, h2⟩)
    have g1 : ∀ x, total l + 8 ≤ x → x < total l + 16 → ¬Scratch t x := fun x h1 h2 h =>
      open_gap (by omega) (by omega) ((scratch_iff hb htop').1 h)
    have g2 : ∀ x, total l + d + 8 ≤ x → x < total l + d + 16 → ¬Scratch t x := fun x h1 h2 h =>
      open_gap (by omega) (by omega) ((scratch_iff hib htop2).1 h)
    have g3 : ∀ x, total l + d + (s - d) + 8 ≤ x → x < total l + d + (s - d) + 16 → ¬Scratch t x := fun x h1 h2 h => by
      have h := (scratch_iff hb htop').1 h
      rw [show l ++ ⟨s, .user q⟩ :: r = (l ++ [⟨s, .user q⟩]) ++ r by simp] at h
      have e3 : total (l ++ [(⟨s, .user q⟩ : Chunk)]) = total l + s := Dl.total_snoc
      exact open_gap (by omega) (by omega) h
    have k1 := sim.setInuse hib hdd g2 g3
    have k2 := Sim.setInuse (t := { t with mem := setInuse t.mem (total l + d) (s - d) }) (p := total l) (s := d) hib k1 hdd g1 g2
    generalize hm1 : setInuse t.mem (total l + d) (s - d) = mm at *
    have hmm : ∀ x, x < total l + d + 8 ∨ (total l + d + 16 ≤ x ∧ x < total l + s + 8) ∨ total l + s + 16 ≤ x → mm x = t.mem x := by
      intro x hx
      rw [← hm1]
      exact Tag.setInuse_ne (by omega) (by omega)
    have hlay1 : Lay mm t.topsize (total l + d) (ld t.mem (total l + d + 8) % 2) (⟨s - d, .user 0⟩ :: r) := by
      rw [← hm1]
      refine Tag.lay_user (Tag.setInuse_head (by omega) (by omega) (by omega) rfl) ?_
      unfold setInuse
      rw [e]
      exact Tag.lay_setPinuse (b := 1) ht s5 (by omega) (by omega) (Tag.lay_congr s5 (fun x hx => st_of_ne (by omega)) hy)
    have hlay2 : Lay (setInuse mm (total l) d) t.topsize 0 1 (l ++ ⟨d, .user 0⟩ :: ⟨s - d, .user 0⟩ :: r) := by
      refine Tag.setInuse_lay (b := ld t.mem (total l + d + 8) % 2) s1 hsr hd (by omega) ht (by simp only [total]; omega) ?_ ?_ (by omega) hlay1
      · exact Tag.pre_congr s1 (fun x hx => hmm x (by omega)) hpre
      · rw [ld_congr (fun x h1 h2 => hmm x (by omega))]
        exact hhead
    rw [Nat.add_assoc]
    exact dispose_lnk (base := base) (t := { t with mem := setInuse mm (total l) d }) false (siz_append.2 ⟨s1, siz_cons.2 ⟨⟨hd, by simp only; omega⟩, hsr⟩⟩) m1 ht
      (by simp only [total]; omega) hlay2 (by simp only [total]; omega) (by rw [hsp]; exact hib) (by omega) (by simp only [total]; omega) k2

end

end Verif.Lnk
