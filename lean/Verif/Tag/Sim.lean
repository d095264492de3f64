import Verif.Tag.Lay
/-!
# Giving chunks back, on memory
-/
namespace Verif.Tag
open Heap Dl

/-- the memory and `top` describe the heap `h` -/
structure Rep (c : CS) (h : Heap) : Prop where
  lay : Lay c.mem c.topsize 0 1 h.chunks
  top : c.top = total h.chunks
  size : h.top = some c.topsize

theorem lay_build {m m' : Mem} {t : Nat} {l r : List Chunk} (hl : Siz l) (hp : Pre m 0 1 l) (h : ∀ x, x < total l + 8 → m' x = m x)
    (hr : Lay m' t (total l) (lastUse 1 l) r) : Lay m' t 0 1 (l ++ r) := by
  rw [lay_append]
  refine ⟨pre_congr hl (fun x hx => h x (by omega)) hp, ?_⟩
  rw [Nat.zero_add]
  exact hr

theorem setFree_ne {m : Mem} {p s x : Nat} (h : x < p + 8 ∨ p + 16 ≤ x) (h' : x < p + s ∨ p + s + 8 ≤ x) : setFree m p s x = m x := by
  unfold setFree setFoot
  rw [st_of_ne h', st_of_ne (by omega)]

theorem setFree_head {m : Mem} {p s : Nat} (hs : 16 ∣ s) (h0 : 0 < s) (h64 : s + 8 < 2 ^ 64) : ld (setFree m p s) (p + 8) = s + 1 := by
  unfold setFree setFoot
  rw [ld_st_ne (by omega), ld_st_same, or_one (by omega)]
  rw [or_one (by omega)]; omega

theorem setFree_foot {m : Mem} {p s : Nat} (h64 : s + 8 < 2 ^ 64) : ld (setFree m p s) (p + s) = s := by
  unfold setFree setFoot
  rw [ld_st_same (by omega)]

/-- where a chunk that is given back ends after merging with a free chunk behind it -/
def endOf (e : Nat) : List Chunk → Nat
  | [] => e
  | ⟨n, .free⟩ :: _ => e + n
  | ⟨_, .user _⟩ :: _ => e
  | ⟨_, .dead⟩ :: _ => e

theorem le_endOf (e : Nat) (r : List Chunk) : e ≤ endOf e r := by
  cases r with
  | nil => simp [endOf]
  | cons c r => obtain ⟨n, u⟩ := c; cases u <;> simp [endOf]

/-- a free chunk in front of chunks that know it is free -/
theorem lay_free {m : Mem} {t o n : Nat} {r : List Chunk} (h1 : ld m (o + 8) = n + 1) (h2 : ld m (o + n) = n) (h3 : Lay m t (o + n) 0 r) :
    Lay m t o 1 (⟨n, .free⟩ :: r) := ⟨by simp [inUse, h1], fun _ => h2, h3⟩

/-- `set_free_with_pinuse` in front of a chunk in use -/
theorem freeWith_lay {m : Mem} {t s : Nat} {l r : List Chunk} (hl : Siz l) (hr : Siz r) (hs : 16 ∣ s) (h0 : 0 < s) (ht : 16 ∣ t)
    (h64 : total l + s + total r + t + 8 < 2 ^ 64) (hp : Pre m 0 1 l) (hu : lastUse 1 l = 1) (hy : Lay m t (total l + s) 1 r) :
    Lay (setFreeWith m (total l) s (total l + s)) t 0 1 (l ++ ⟨s, .free⟩ :: r) ∧
    ∀ x, x < total l + 8 ∨ total l + s + 16 ≤ x → setFreeWith m (total l) s (total l + s) x = m x := by
  have hfr : ∀ x, x < total l + 8 ∨ total l + s + 16 ≤ x → setFreeWith m (total l) s (total l + s) x = m x := by
    intro x hx
    unfold setFreeWith
    rw [setFree_ne (by omega) (by omega), clearPinuse_ne (by omega)]
  refine ⟨lay_build hl hp (fun x hx => hfr x (.inl hx)) ?_, hfr⟩
  rw [hu]
  unfold setFreeWith
  refine lay_free (setFree_head hs h0 (by omega)) (setFree_foot (by omega)) ?_
  refine lay_congr hr (fun x hx => setFree_ne (by omega) (by omega)) (lay_clearPinuse ht hr (by omega) (by omega) hy)

theorem setFree_lay {m : Mem} {t s : Nat} {l r : List Chunk} (hl : Siz l) (hr : Siz r) (hs : 16 ∣ s) (h0 : 0 < s)
    (h64 : total l + s + total r + t + 8 < 2 ^ 64) (hp : Pre m 0 1 l) (hu : lastUse 1 l = 1) (hy : Lay m t (total l + s) 0 r) :
    Lay (setFree m (total l) s) t 0 1 (l ++ ⟨s, .free⟩ :: r) ∧
    ∀ x, x < total l + 8 ∨ total l + s + 16 ≤ x → setFree m (total l) s x = m x := by
  have hfr : ∀ x, x < total l + 8 ∨ total l + s + 16 ≤ x → setFree m (total l) s x = m x := by
    intro x hx
    rw [setFree_ne (by omega) (by omega)]
  refine ⟨lay_build hl hp (fun x hx => hfr x (.inl hx)) ?_, hfr⟩
  rw [hu]
  exact lay_free (setFree_head hs h0 (by omega)) (setFree_foot (by omega)) (lay_congr hr (fun x hx => setFree_ne (by omega) (by omega)) hy)

theorem lay_flags {m : Mem} {t o b : Nat} {cs : List Chunk} (ht : 16 ∣ t) (hs : Siz cs) (hb : b < 2) (h : Lay m t o b cs) :
    pinuse m o = decide (b = 1) := by
  cases cs with
  | nil =>
    have h : ld m (o + 8) = t + b := h
    exact (head_flags (s := t) (u := 0) (by omega) (by omega) hb (by omega)).1
  | cons c cs =>
    have := (siz_cons.1 hs).1.1
    exact (head_flags h.1 (by omega) hb (inUse_lt _)).1

theorem forward_sim {c : CS} {l r : List Chunk} {s : Nat} (hl : Siz l) (hr : Siz r) (hs : 16 ∣ s) (h0 : 0 < s) (ht : 16 ∣ c.topsize)
    (h64 : total l + s + total r + c.topsize + 8 < 2 ^ 64) (hp : Pre c.mem 0 1 l) (hu : lastUse 1 l = 1) (hy : Lay c.mem c.topsize (total l + s) 1 r)
    (htop : c.top = total l + s + total r) (hdv : ∀ n r', r = ⟨n, .free⟩ :: r' → c.bins.dv = some (total l + s) → c.bins.dvsize = n) :
    Rep (forward c (total l) s (total l + s)) (fwd l s r (some c.topsize)) ∧
    (forward c (total l) s (total l + s)).bins = fwdBins c.bins (total l) s (total l + s) r (some c.topsize) ∧
    ∀ x, x < total l + 8 ∨ endOf (total l + s) r + 16 ≤ x → (forward c (total l) s (total l + s)).mem x = c.mem x := by
  cases r with
  | nil =>
    unfold forward
    have hy' : ld c.mem (total l + s + 8) = c.topsize + 1 := hy
    obtain ⟨-, e2, -, -⟩ := head_flags (s := c.topsize) (b := 1) (u := 0) (by omega) (by omega) (by omega) (by omega) (p := total l + s) (m := c.mem)
    simp only [total] at htop
    rw [if_pos (by rw [e2]; simp), if_pos (by omega)]
    have hfr : ∀ x, x < total l + 8 ∨ total l + 16 ≤ x → st c.mem (total l + 8) ((c.topsize + s) ||| 1) x = c.mem x := fun x hx => st_of_ne (by omega)
    refine ⟨⟨?_, rfl, by simp [fwd, Nat.add_comm]⟩, by simp [fwdBins], fun x hx => hfr x (by simp only [endOf] at hx; omega)⟩
    have := lay_build (m' := st c.mem (total l + 8) ((c.topsize + s) ||| 1)) (t := c.topsize + s) (r := []) hl hp (fun x hx => hfr x (.inl hx)) ?_
    · simpa [fwd] using this
    · show ld _ (total l + 8) = _
      rw [ld_st_same, or_one (by omega), hu]
      rw [or_one (by omega)]; omega
  | cons d r =>
    obtain ⟨n, u⟩ := d
    obtain ⟨⟨n1, n2⟩, hr'⟩ := siz_cons.1 hr
    simp only at n1 n2
    simp only [total] at htop h64
    have huse : inUse u = 1 → Rep (forward c (total l) s (total l + s)) ⟨l ++ ⟨s, .free⟩ :: ⟨n, u⟩ :: r, some c.topsize⟩ ∧
        (forward c (total l) s (total l + s)).bins = c.bins.insert (total l) s ∧
        ∀ x, x < total l + 8 ∨ total l + s + 16 ≤ x → (forward c (total l) s (total l + s)).mem x = c.mem x := by
      intro hu1
      obtain ⟨-, e2, -, -⟩ := head_flags hy.1 (by simp only; omega) (by omega) (inUse_lt _)
      simp only [hu1, decide_true] at e2
      obtain ⟨k1, k2⟩ := freeWith_lay hl hr hs h0 ht (by simp only [total]; omega) hp hu hy
      unfold forward
      rw [if_neg (by rw [e2]; simp)]
      refine ⟨⟨k1, ?_, rfl⟩, rfl, k2⟩
      simp only [total_append, total]; omega
    cases u with
    | user q => exact huse rfl
    | dead => exact huse rfl
    | free =>
      unfold forward
      obtain ⟨-, e2, -, e4⟩ := head_flags hy.1 (by simp only; omega) (by omega) (inUse_lt _)
      simp only [inUse] at e2 e4
      have hne : total l + s ≠ c.top := by omega
      obtain ⟨k1, k2⟩ := setFree_lay (m := c.mem) (t := c.topsize) (s := s + n) (r := r) hl hr' (by omega) (by omega) (by omega) hp hu (by rw [← Nat.add_assoc]; exact hy.2.2)
      rw [if_pos (by rw [e2]; simp), if_neg hne]
      have htot : c.top = total (l ++ ⟨s + n, .free⟩ :: r) := by simp only [total_append, total]; omega
      by_cases hd : c.bins.dv = some (total l + s)
      · have hn := hdv n r rfl hd
        rw [if_pos hd]
        have e : c.bins.dvsize + s = s + n := by omega
        refine ⟨⟨?_, htot, rfl⟩, ?_, ?_⟩
        · simp only [fwd]; rw [e]; exact k1
        · simp [fwdBins, hd]
        · simp only [endOf]; rw [e]; intro x hx; exact k2 x (by omega)
      · rw [if_neg hd]
        simp only [e4]
        refine ⟨⟨k1, htot, rfl⟩, ?_, fun x hx => k2 x (by simp only [endOf] at hx; omega)⟩
        simp [fwdBins, hd]

theorem chain_lastUse {l : List Chunk} {n : Nat} (h : (l ++ [(⟨n, .free⟩ : Chunk)]).IsChain NotBoth) : lastUse 1 l = 1 := by
  cases hl : l.getLast? with
  | none => rw [List.getLast?_eq_none_iff.1 hl]; rfl
  | some d =>
    obtain ⟨ys, rfl⟩ := List.getLast?_eq_some_iff.1 hl
    rw [lastUse_snoc]
    have := (isChain_mid.1 h).2.2.1 d (by simp)
    obtain ⟨k, u⟩ := d
    cases u with
    | free => exact absurd (show (⟨k, .free⟩ : Chunk).use = .free ∧ (⟨n, .free⟩ : Chunk).use = .free from ⟨rfl, rfl⟩) this
    | user q => rfl
    | dead => rfl

theorem prevFree_free {n : Nat} (l : List Chunk) : prevFree (l ++ [⟨n, .free⟩]) = some n := by
  induction l with
  | nil => rfl
  | cons c l ih =>
    obtain ⟨k, u⟩ := c
    cases l with
    | nil => cases u <;> rfl
    | cons d l =>
      have e : prevFree (⟨k, u⟩ :: d :: (l ++ [⟨n, .free⟩])) = prevFree (d :: (l ++ [⟨n, .free⟩])) := by cases u <;> simp [prevFree]
      exact e.trans ih

/-- `dispose_chunk`, or `mspace_free`, on the memory does what the model on lists says -/
theorem dispose_sim {c : CS} {l r : List Chunk} {s q : Nat} (chk : Bool) (hs : Siz (l ++ ⟨s, .user q⟩ :: r)) (hc : l.IsChain NotBoth) (ht : 16 ∣ c.topsize)
    (h64 : total l + s + total r + c.topsize + 8 < 2 ^ 64) (hy : Lay c.mem c.topsize 0 1 (l ++ ⟨s, .user q⟩ :: r))
    (htop : c.top = total l + s + total r) (ib : BInv (fmap 0 (l ++ ⟨s, .user q⟩ :: r)) c.bins) :
    ∃ c', dispose chk c (total l) s = some c' ∧ Rep c' (Heap.dispose l s r (some c.topsize)) ∧
      c'.bins = disposeBins c.bins l (total l) s r (some c.topsize) ∧
      ∀ x, x < total (back l s).1 + 8 ∨ endOf (total l + s) r + 16 ≤ x → c'.mem x = c.mem x := by
  obtain ⟨hsl, hsr⟩ := siz_append.1 hs
  obtain ⟨⟨s1, s2⟩, hsr⟩ := siz_cons.1 hsr
  simp only at s1 s2
  obtain ⟨hpre, hlay⟩ := (lay_append l _ 0 1).1 hy
  rw [Nat.zero_add] at hlay
  have hb := lastUse_lt (b := 1) (by omega) l
  obtain ⟨f1, f2, f3, f4⟩ := head_flags hlay.1 (by simp only; omega) hb (inUse_lt _)
  have hnx : pinuse c.mem (total l + s) = true := by
    have := lay_flags ht hsr (by simp [inUse]) hlay.2.2
    rw [this]; simp [inUse]
  have hdvn : ∀ (l' : List Chunk) (s' n : Nat) (r' : List Chunk), total l' + s' = total l + s → r = ⟨n, .free⟩ :: r' → c.bins.dv = some (total l' + s') → c.bins.dvsize = n := by
    intro l' s' n r' e hr hd
    rw [e] at hd
    have h1 := ib.dv _ hd
    have hpos : Pos (l ++ [⟨s, .user q⟩]) := by
      intro d hd
      rcases List.mem_append.1 hd with hd | hd
      · exact (hsl d hd).2
      · simp at hd; subst hd; exact s2
    have h2 : fmap 0 ((l ++ [⟨s, .user q⟩]) ++ ⟨n, .free⟩ :: r') (total (l ++ [⟨s, .user q⟩])) = some n := fmap_at_free hpos
    have e1 : (l ++ [⟨s, .user q⟩]) ++ ⟨n, .free⟩ :: r' = l ++ ⟨s, .user q⟩ :: r := by rw [hr]; simp
    have e2 : total (l ++ [⟨s, .user q⟩]) = total l + s := by rw [total_append]; rfl
    rw [e1, e2, h1] at h2
    injection h2
  unfold dispose
  simp only
  cases hpf : prevFree l with
  | none =>
    have hbk := prevFree_none hpf
    have hlast : lastUse 1 l = 1 := by
      cases hl : l.getLast? with
      | none => rw [List.getLast?_eq_none_iff.1 hl]; rfl
      | some d =>
        obtain ⟨ys, rfl⟩ := List.getLast?_eq_some_iff.1 hl
        rw [lastUse_snoc]
        obtain ⟨k, u⟩ := d
        cases u with
        | free =>
          exfalso
          rw [prevFree_free] at hpf
          cases hpf
        | user q => rfl
        | dead => rfl
    rw [hlast] at f1
    rw [if_pos (by rw [f1]; rfl)]
    obtain ⟨k1, k2, k3⟩ := forward_sim hsl hsr s1 s2 ht h64 hpre hlast hlay.2.2 htop (fun n r' => hdvn l s n r' rfl)
    refine ⟨forward c (total l) s (total l + s), ?_, ?_, ?_, ?_⟩
    · unfold forwardChk
      rw [hnx, if_neg]
      simp; omega
    · unfold Heap.dispose
      simp only [hbk]
      exact k1
    · unfold disposeBins
      rw [hpf]
      exact k2
    · rw [hbk]; exact k3
  | some n =>
    obtain ⟨l0, rfl, hbk⟩ := prevFree_some hpf
    have hlast0 : lastUse 1 l0 = 1 := chain_lastUse hc
    have htl : total (l0 ++ [⟨n, .free⟩]) = total l0 + n := by rw [total_append]; rfl
    obtain ⟨hsl0, hsn⟩ := siz_append.1 hsl
    obtain ⟨n1, n2⟩ := (siz_cons.1 hsn).1
    simp only at n1 n2
    obtain ⟨hpre0, hpren⟩ := (pre_append l0 _ 0 1).1 hpre
    have hfoot : ld c.mem (total l0 + n) = n := by
      have := hpren.2.1 rfl
      rwa [Nat.zero_add] at this
    rw [lastUse_snoc] at f1 f3
    simp only [inUse] at f1 f3
    have hfoot' : prevFoot c.mem (total (l0 ++ [⟨n, .free⟩])) = n := by unfold prevFoot; rw [htl]; exact hfoot
    rw [if_neg (by rw [f1]; simp), if_neg (by rw [f3]; omega), hfoot', if_neg (by omega)]
    have e1 : total (l0 ++ [⟨n, .free⟩]) - n = total l0 := by omega
    have e2 : total (l0 ++ [⟨n, .free⟩]) + s = total l0 + (n + s) := by omega
    have hlay' : Lay c.mem c.topsize (total l0 + (n + s)) 1 r := by rw [← e2]; exact hlay.2.2
    rw [e1]
    have hnx' : pinuse c.mem (total l0 + (n + s)) = true := by rw [← e2]; exact hnx
    by_cases hd : c.bins.dv = some (total l0)
    · rw [if_neg (by simp [hd])]
      obtain ⟨k1, k2, k3⟩ := forward_sim (s := n + s) hsl0 hsr (by omega) (by omega) ht (by omega) hpre0 hlast0 hlay' (by omega)
        (fun n' r' => hdvn l0 (n + s) n' r' e2.symm)
      have hgo : forwardChk chk c (total l0) (n + s) (total (l0 ++ [⟨n, .free⟩]) + s) = some (forward c (total l0) (n + s) (total l0 + (n + s))) := by
        unfold forwardChk
        rw [e2, hnx', if_neg]
        simp; omega
      -- the next chunk is in use: flags
      have hcase : (inuseBits c.mem (total (l0 ++ [⟨n, .free⟩]) + s) = 3) = (nextInUse r (some c.topsize) = true) := by
        cases r with
        | nil =>
          obtain ⟨-, -, g, -⟩ := head_flags (s := c.topsize) (b := 1) (u := 0) (by have : ld c.mem _ = _ := hlay'; omega) (by omega) (by omega) (by omega) (p := total l0 + (n + s)) (m := c.mem)
          rw [e2, g]
          simp [nextInUse]
        | cons d r =>
          obtain ⟨k, u⟩ := d
          have := (siz_cons.1 hsr).1.1
          simp only at this
          obtain ⟨-, -, g, -⟩ := head_flags hlay'.1 (by simp only; omega) (by omega) (inUse_lt _)
          rw [e2, g]
          cases u <;> simp [nextInUse, inUse]
      by_cases hnu : nextInUse r (some c.topsize) = true
      · rw [if_pos (by rw [hcase]; exact hnu)]
        obtain ⟨j1, j2⟩ := freeWith_lay (s := n + s) hsl0 hsr (by omega) (by omega) ht (by omega) hpre0 hlast0 hlay'
        have hend : endOf (total l0 + (n + s)) r = total l0 + (n + s) := by
          cases r with
          | nil => rfl
          | cons d r =>
            obtain ⟨k, u⟩ := d
            cases u with
            | free => simp [nextInUse] at hnu
            | user q => rfl
            | dead => rfl
        have hfw : fwd l0 (n + s) r (some c.topsize) = ⟨l0 ++ ⟨n + s, .free⟩ :: r, some c.topsize⟩ := by
          cases r with
          | nil => simp [nextInUse] at hnu
          | cons d r =>
            obtain ⟨k, u⟩ := d
            cases u with
            | free => simp [nextInUse] at hnu
            | user q => rfl
            | dead => rfl
        refine ⟨_, rfl, ?_, ?_, ?_⟩
        · unfold Heap.dispose
          simp only [hbk, hfw]
          refine ⟨?_, ?_, rfl⟩
          · simp only; rw [e2]; exact j1
          · simp only [total_append, total]; omega
        · unfold disposeBins
          rw [hpf]
          simp only [e1, hd, if_true, hnu]
        · rw [hbk, e2, hend]
          exact fun x hx => j2 x hx
      · rw [if_neg (by rw [hcase]; exact hnu), hgo]
        refine ⟨_, rfl, ?_, ?_, ?_⟩
        · unfold Heap.dispose
          simp only [hbk]
          exact k1
        · unfold disposeBins
          rw [hpf]
          simp only [e1, hd, if_true, if_neg hnu, e2]
          exact k2
        · rw [hbk, e2]; exact k3
    · rw [if_pos hd]
      obtain ⟨k1, k2, k3⟩ := forward_sim (c := { c with bins := c.bins.unlink (total l0) n }) (s := n + s) hsl0 hsr (by omega) (by omega) ht (by simp only; omega) hpre0 hlast0 hlay' (by simp only; omega)
        (fun n' r' hr hd' => by
          simp only at hd' ⊢
          rw [(unlink_dv _ _ _).1] at hd'
          rw [(unlink_dv _ _ _).2]
          exact hdvn l0 (n + s) n' r' e2.symm hr hd')
      have hgo : forwardChk chk { c with bins := c.bins.unlink (total l0) n } (total l0) (n + s) (total (l0 ++ [⟨n, .free⟩]) + s) =
          some (forward { c with bins := c.bins.unlink (total l0) n } (total l0) (n + s) (total l0 + (n + s))) := by
        unfold forwardChk
        rw [e2]
        simp only
        rw [hnx', if_neg]
        simp; omega
      rw [hgo]
      refine ⟨_, rfl, ?_, ?_, ?_⟩
      · unfold Heap.dispose
        simp only [hbk]
        exact k1
      · unfold disposeBins
        rw [hpf]
        simp only [e1, if_neg hd, e2]
        exact k2
      · rw [hbk, e2]; exact k3

end Verif.Tag
