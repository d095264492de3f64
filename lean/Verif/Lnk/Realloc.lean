import Verif.Lnk.Malloc
/-!
# Reallocation, alignment and `calloc`, with links
-/
namespace Verif.Lnk
open Heap (Chunk Use Heap total total_append NotBoth need minChunk maxRequest need_ge need_dvd need_fits)
open Dl (Tree Bins BInv fmap Pos isSmall)
open Tag (Mem CS ld st ld_congr st_of_ne chunksize cinuse pinuse inuseBits prevFoot head setFree setInuse clearPinuse setFree_ne setInuse_ne clearPinuse_ne
  InBins Scratch At Siz Lay OK at_cons at_append at_mid at_left at_right siz_append siz_cons lay_append head_flags inUse inUse_lt lastUse lastUse_lt)

section
variable {base : Nat} {L : State} {t : CS} {h : Heap} {G : Mem} {l r : List Chunk} {s q : Nat}

/-! ## `try_realloc_chunk` -/

/-- the header of a chunk in use, and the flag in the next one -/
theorem block_head (ok : OK t h) (hc : h.chunks = l ++ ⟨s, .user q⟩ :: r) :
    chunksize t.mem (total l) = s ∧ inuseBits t.mem (total l) ≠ 0 ∧ inuseBits t.mem (total l) ≠ 1 ∧ pinuse t.mem (total l + s) = true := by
  obtain ⟨s1, s5, s3, s4, ht, ht0, m1, htop, h64, hcap, hpre, hhead, hy, f3, f4, hb⟩ := ok.split hc
  have hlay := ok.rep.lay
  rw [hc] at hlay
  obtain ⟨-, hl2⟩ := (lay_append l _ 0 1).1 hlay
  rw [Nat.zero_add] at hl2
  obtain ⟨-, -, f3', -⟩ := head_flags hl2.1 (by simp only; omega) (lastUse_lt (by omega) l) (inUse_lt _)
  simp only [inUse] at f3'
  refine ⟨f4, f3, by omega, ?_⟩
  rw [Tag.lay_flags ht s5 (by omega) hy]; rfl

/-- the header of the next chunk -/
theorem next_head (ok : OK t h) {n : Nat} {w : Use} (hc : h.chunks = l ++ ⟨s, .user q⟩ :: ⟨n, w⟩ :: r) :
    chunksize t.mem (total l + s) = n ∧ cinuse t.mem (total l + s) = decide (inUse w = 1) ∧ total l + s < t.top := by
  obtain ⟨s1, s5, s3, s4, ht, ht0, m1, htop, h64, hcap, hpre, hhead, hy, f3, f4, hb⟩ := ok.split hc
  obtain ⟨⟨n1, n2⟩, s6⟩ := siz_cons.1 s5
  simp only at n1 n2
  simp only [total] at htop
  obtain ⟨g1, g2, g3, g4⟩ := head_flags hy.1 (by simp only; omega) (by omega) (inUse_lt _)
  exact ⟨g4, g2, by omega⟩

theorem tag_try (ok : OK t h) (hc : h.chunks = l ++ ⟨s, .user q⟩ :: r) (nb : Nat) : Tag.tryRealloc t (total l) nb =
    if nb ≤ s then if minChunk ≤ s - nb then (Tag.cut t (total l) nb (s - nb)).map (fun c' => (c', true)) else some (t, true)
    else if total l + s = t.top then
      if nb < s + t.topsize then
        some (⟨st (setInuse t.mem (total l) nb) (total l + nb + 8) ((s + t.topsize - nb) ||| 1), t.bins, total l + nb, s + t.topsize - nb⟩, true)
      else some (t, false)
    else if t.bins.dv = some (total l + s) then
      if nb ≤ s + t.bins.dvsize then
        if minChunk ≤ s + t.bins.dvsize - nb then
          some ({ t with mem := clearPinuse (setFree (setInuse t.mem (total l) nb) (total l + nb) (s + t.bins.dvsize - nb)) (total l + nb + (s + t.bins.dvsize - nb)),
                         bins := { t.bins with dv := some (total l + nb), dvsize := s + t.bins.dvsize - nb } }, true)
        else some ({ t with mem := setInuse t.mem (total l) (s + t.bins.dvsize), bins := { t.bins with dv := none, dvsize := 0 } }, true)
      else some (t, false)
    else if cinuse t.mem (total l + s) = false then
      if nb ≤ s + chunksize t.mem (total l + s) then
        if s + chunksize t.mem (total l + s) - nb < minChunk then
          some ({ t with bins := t.bins.unlink (total l + s) (chunksize t.mem (total l + s)), mem := setInuse t.mem (total l) (s + chunksize t.mem (total l + s)) }, true)
        else (Tag.cut { t with bins := t.bins.unlink (total l + s) (chunksize t.mem (total l + s)) } (total l) nb (s + chunksize t.mem (total l + s) - nb)).map (fun c' => (c', true))
      else some (t, false)
    else some (t, false) := by
  obtain ⟨s1, s5, s3, s4, -⟩ := ok.split hc
  obtain ⟨b1, b2, b3, b4⟩ := block_head ok hc
  unfold Tag.tryRealloc
  simp only [b1]
  have hcond : ¬(inuseBits t.mem (total l) = 1 ∨ total l + s ≤ total l ∨ pinuse t.mem (total l + s) = false ∨ inuseBits t.mem (total l) = 0) := by
    rw [b4]; simp; exact ⟨b3, by omega, b2⟩
  rw [if_neg hcond]

theorem lnk_try (ok : OK t h) (sim : Sim base G (Scratch t) L t) (hc : h.chunks = l ++ ⟨s, .user q⟩ :: r) (nb : Nat) : tryRealloc base L (first base + total l) nb =
    if nb ≤ s then if minChunk ≤ s - nb then (cut base L (first base + total l) nb (s - nb)).map (fun c' => (c', true)) else some (L, true)
    else if total l + s = t.top then
      if nb < s + t.topsize then
        some ({ L with mem := st (setInuse L.mem (first base + total l) nb) (first base + (total l + nb + 8)) ((s + t.topsize - nb) ||| 1),
                       top := first base + (total l + nb), topsize := s + t.topsize - nb }, true)
      else some (L, false)
    else if t.bins.dv = some (total l + s) then
      if nb ≤ s + t.bins.dvsize then
        if minChunk ≤ s + t.bins.dvsize - nb then
          some ({ L with mem := clearPinuse (setFree (setInuse L.mem (first base + total l) nb) (first base + (total l + nb)) (s + t.bins.dvsize - nb))
                                  (first base + (total l + nb + (s + t.bins.dvsize - nb))),
                         dv := first base + (total l + nb), dvsize := s + t.bins.dvsize - nb }, true)
        else some ({ L with mem := setInuse L.mem (first base + total l) (s + t.bins.dvsize), dv := 0, dvsize := 0 }, true)
      else some (L, false)
    else if cinuse L.mem (first base + (total l + s)) = false then
      if nb ≤ s + chunksize L.mem (first base + (total l + s)) then
        (unlinkChunk base L (first base + (total l + s)) (chunksize L.mem (first base + (total l + s)))).bind fun c =>
          if s + chunksize L.mem (first base + (total l + s)) - nb < minChunk then
            some ({ c with mem := setInuse c.mem (first base + total l) (s + chunksize L.mem (first base + (total l + s))) }, true)
          else (cut base c (first base + total l) nb (s + chunksize L.mem (first base + (total l + s)) - nb)).map fun c => (c, true)
      else some (L, false)
    else some (L, false) := by
  have ok0 := Tag.scratch_ok ok (m := view base L.mem) sim.mem
  obtain ⟨s1, s5, s3, s4, -⟩ := ok.split hc
  obtain ⟨b1, b2, b3, b4⟩ := block_head ok0 hc
  simp only [chunksize_view, inuseBits_view, pinuse_view] at b1 b2 b3 b4
  unfold tryRealloc
  simp only [b1]
  have hcond : ¬(first base + total l < base ∨ inuseBits L.mem (first base + total l) = 1 ∨ first base + total l + s ≤ first base + total l ∨
      pinuse L.mem (first base + total l + s) = false ∨ inuseBits L.mem (first base + total l) = 0) := by
    rw [Nat.add_assoc, b4]; simp; exact ⟨by unfold first; omega, b3, by omega, b2⟩
  rw [if_neg hcond, sim.top, sim.topsize, sim.dv, sim.dvsize]
  have e1 : (first base + total l + s = first base + t.top) ↔ total l + s = t.top := by omega
  have e2 : (first base + total l + s = encDv base t.bins.dv) ↔ t.bins.dv = some (total l + s) := by rw [Nat.add_assoc]; exact encDv_iff
  simp only [e1, e2]
  simp only [Nat.add_assoc]

theorem tryRealloc_lnk (ok : OK t h) (hlt : first base + h.cap < 2 ^ 64) (sim : Sim base G (Scratch t) L t) (hc : h.chunks = l ++ ⟨s, .user q⟩ :: r) (req : Nat) :
    ∃ m0 L' t' y, (∀ x, ¬Scratch t x → m0 x = t.mem x) ∧ tryRealloc base L (first base + total l) (need req) = some (L', y) ∧
      Tag.tryRealloc { t with mem := m0 } (total l) (need req) = some (t', y) ∧ Sim base G (Scratch t') L' t' := by
  have hagr : ∀ x, ¬Scratch t x → view base L.mem x = t.mem x := sim.mem
  have ok0 := Tag.scratch_ok ok (m := view base L.mem) hagr
  have k0 := sim.exact
  have h32 := need_ge req
  have h16 := need_dvd req
  rw [lnk_try ok sim hc]
  obtain ⟨s1, s5, s3, s4, ht, ht0, m1, htop, h64, hcap, hpre, hhead, hy, f3, f4, hb⟩ := ok0.split hc
  simp only at ht ht0 htop h64 hcap hpre hhead hy f3 f4 hb
  have hsz := Tag.WF.siz ok.inv.wf
  have hF := ok.inv.bins
  have hside : ∀ x z, fmap 0 h.chunks x = some z → x + z ≤ total l ∨ total l + s ≤ x := by
    intro x z hx
    have h1 := (fmap_iff (siz_pos hsz)).1 hx
    have h2 : At 0 h.chunks (total l) s (.user q) := ⟨l, r, hc, by omega⟩
    rcases Tag.at_apart hsz h2 h1 with e | e | e
    · subst e
      have := (Tag.at_unique hsz h2 h1).2
      cases this
    · exact .inr e
    · exact .inl e
  have simple : ∀ L' t' y, tryRealloc base L (first base + total l) (need req) = some (L', y) → Tag.tryRealloc { t with mem := view base L.mem } (total l) (need req) = some (t', y) →
      Sim base G (Scratch t') L' t' → ∃ m0 L' t' y, (∀ x, ¬Scratch t x → m0 x = t.mem x) ∧ tryRealloc base L (first base + total l) (need req) = some (L', y) ∧
        Tag.tryRealloc { t with mem := m0 } (total l) (need req) = some (t', y) ∧ Sim base G (Scratch t') L' t' := fun L' t' y a b c => ⟨_, L', t', y, hagr, a, b, c⟩
  rw [← lnk_try ok sim hc]
  by_cases hs : need req ≤ s
  · by_cases hm : minChunk ≤ s - need req
    · have hm' := hm
      unfold minChunk at hm'
      have hib := hb
      rw [Dl.fmap_cut (nb := need req) (req := req) (by omega)] at hib
      have e : total l + need req + (s - need req) = total l + s := by omega
      obtain ⟨L', t', a1, a2, a3⟩ := cut_lnk (base := base) (t := { t with mem := view base L.mem }) (nb := need req) (rs := s - need req) (u := req) (b := 1) s1 s5 h16 (by omega) (by omega) hm' ht m1 (by simp only; omega) hpre hhead
        (by omega) (by rw [e]; exact hy) (by simp only; omega) hib (by omega) (k0.mono (fun x h => h.elim))
      refine simple L' t' true ?_ ?_ a3
      · rw [lnk_try ok sim hc, if_pos hs, if_pos hm, a1]; rfl
      · rw [tag_try ok0 hc, if_pos hs, if_pos hm, a2]; rfl
    · refine simple L _ true ?_ ?_ (k0.mono (fun x h => h.elim))
      · rw [lnk_try ok sim hc, if_pos hs, if_neg hm]
      · rw [tag_try ok0 hc, if_pos hs, if_neg hm]
  · by_cases htp : total l + s = t.top
    · by_cases hfit : need req < s + t.topsize
      · have hr0 : total r = 0 := by omega
        refine simple _ _ true (by rw [lnk_try ok sim hc, if_neg hs, if_pos htp, if_pos hfit]) (by rw [tag_try ok0 hc, if_neg hs, if_pos htp, if_pos hfit]) ?_
        have k1 := Sim.setMem (t := { t with mem := view base L.mem }) (D' := fun _ => False) (F := fmap 0 h.chunks)
          (m1 := st (setInuse L.mem (first base + total l) (need req)) (first base + (total l + need req + 8)) ((s + t.topsize - need req) ||| 1))
          (m2 := st (setInuse (view base L.mem) (total l) (need req)) (total l + need req + 8) ((s + t.topsize - need req) ||| 1)) hF k0
          (by
            intro y hy
            rw [st_of_ne (by omega), setInuse_ne (by omega) (by omega)])
          (by
            intro x z h1 _ y h2 h3
            have h4 := hside x z h1
            have h5 := Dl.fmap_bound h1
            have h6 := (hF.size x z h1).2
            rw [← ok.rep.top] at h5
            rw [st_of_ne (by omega), setInuse_ne (by omega) (by omega)])
          (by
            intro x _
            rw [view_st, view_setInuse])
        exact ⟨k1.smallmap, k1.treemap, k1.dv, k1.dvsize, rfl, rfl, k1.low, ⟨k1.links.small, k1.links.slot, k1.links.tree⟩, k1.mem.mono (fun x h => h.elim)⟩
      · refine simple L _ false ?_ ?_ (k0.mono (fun x h => h.elim))
        · rw [lnk_try ok sim hc, if_neg hs, if_pos htp, if_neg hfit]
        · rw [tag_try ok0 hc, if_neg hs, if_pos htp, if_neg hfit]
    · by_cases hd : t.bins.dv = some (total l + s)
      · have hFd := hF.dv _ hd
        obtain ⟨z1, z2⟩ := hF.size _ _ hFd
        have hdis : ∀ x z, fmap 0 h.chunks x = some z → t.bins.dv ≠ some x → total l + s + t.bins.dvsize ≤ x ∨ x + z ≤ total l := by
          intro x z h1 h2
          have h3 := Tag.at_apart hsz ((fmap_iff (siz_pos hsz)).1 hFd) ((fmap_iff (siz_pos hsz)).1 h1)
          have h4 : total l + s ≠ x := fun e => h2 (e ▸ hd)
          have h5 := hside x z h1
          omega
        by_cases hfit : need req ≤ s + t.bins.dvsize
        · by_cases hm : minChunk ≤ s + t.bins.dvsize - need req
          · have hm' := hm
            unfold minChunk at hm'
            refine simple _ _ true (by rw [lnk_try ok sim hc, if_neg hs, if_neg htp, if_pos hd, if_pos hfit, if_pos hm])
              (by rw [tag_try ok0 hc, if_neg hs, if_neg htp, if_pos hd, if_pos hfit, if_pos hm]) ?_
            have k1 := Sim.setMem (t := { t with mem := view base L.mem }) (D' := fun _ => False) (F := fmap 0 h.chunks)
              (m1 := clearPinuse (setFree (setInuse L.mem (first base + total l) (need req)) (first base + (total l + need req)) (s + t.bins.dvsize - need req))
                (first base + (total l + need req + (s + t.bins.dvsize - need req))))
              (m2 := clearPinuse (setFree (setInuse (view base L.mem) (total l) (need req)) (total l + need req) (s + t.bins.dvsize - need req))
                (total l + need req + (s + t.bins.dvsize - need req))) hF k0
              (by
                intro y hy
                rw [clearPinuse_ne (by omega), setFree_ne (by omega) (by omega), setInuse_ne (by omega) (by omega)])
              (by
                intro x z h1 h7 y h2 h3
                have h4 := hdis x z h1 h7
                rw [clearPinuse_ne (by omega), setFree_ne (by omega) (by omega), setInuse_ne (by omega) (by omega)])
              (by
                intro x _
                rw [view_clearPinuse, view_setFree, view_setInuse])
            exact ⟨k1.smallmap, k1.treemap, rfl, rfl, k1.top, k1.topsize, k1.low, ⟨k1.links.small, k1.links.slot, k1.links.tree⟩, k1.mem.mono (fun x h => h.elim)⟩
          · refine simple _ _ true (by rw [lnk_try ok sim hc, if_neg hs, if_neg htp, if_pos hd, if_pos hfit, if_neg hm])
              (by rw [tag_try ok0 hc, if_neg hs, if_neg htp, if_pos hd, if_pos hfit, if_neg hm]) ?_
            have k1 := Sim.setMem (t := { t with mem := view base L.mem }) (D' := fun _ => False) (F := fmap 0 h.chunks)
              (m1 := setInuse L.mem (first base + total l) (s + t.bins.dvsize)) (m2 := setInuse (view base L.mem) (total l) (s + t.bins.dvsize)) hF k0
              (by
                intro y hy
                rw [setInuse_ne (by omega) (by omega)])
              (by
                intro x z h1 h7 y h2 h3
                have h4 := hdis x z h1 h7
                rw [setInuse_ne (by omega) (by omega)])
              (by
                intro x _
                rw [view_setInuse])
            exact ⟨k1.smallmap, k1.treemap, rfl, rfl, k1.top, k1.topsize, k1.low, ⟨k1.links.small, k1.links.slot, k1.links.tree⟩, k1.mem.mono (fun x h => h.elim)⟩
        · refine simple L _ false ?_ ?_ (k0.mono (fun x h => h.elim))
          · rw [lnk_try ok sim hc, if_neg hs, if_neg htp, if_pos hd, if_neg hfit]
          · rw [tag_try ok0 hc, if_neg hs, if_neg htp, if_pos hd, if_neg hfit]
      · cases r with
        | nil => exact absurd htop.symm (by simp only [total] at *; omega)
        | cons d r =>
          obtain ⟨n, w⟩ := d
          obtain ⟨g1, g2, -⟩ := next_head ok0 hc
          simp only at g1 g2
          have g1L := g1
          have g2L := g2
          rw [chunksize_view] at g1L
          rw [cinuse_view] at g2L
          have hbusy : inUse w = 1 → ∃ m0 L' t' y, (∀ x, ¬Scratch t x → m0 x = t.mem x) ∧ tryRealloc base L (first base + total l) (need req) = some (L', y) ∧
              Tag.tryRealloc { t with mem := m0 } (total l) (need req) = some (t', y) ∧ Sim base G (Scratch t') L' t' := by
            intro hw
            refine simple L _ false ?_ ?_ (k0.mono (fun x h => h.elim))
            · rw [lnk_try ok sim hc, if_neg hs, if_neg htp, if_neg hd, if_neg (by rw [g2L]; simp [hw])]
            · rw [tag_try ok0 hc, if_neg hs, if_neg htp, if_neg hd, if_neg (by rw [g2]; simp [hw])]
          cases w with
          | user q' => exact hbusy rfl
          | dead => exact hbusy rfl
          | free =>
            have g2' : cinuse (view base L.mem) (total l + s) = false := by rw [g2]; simp [inUse]
            have g2L' : cinuse L.mem (first base + (total l + s)) = false := by rw [g2L]; simp [inUse]
            by_cases hfit : need req ≤ s + n
            · have hcut := hb
              have hcq : h.chunks = (l ++ [⟨s, .user q⟩]) ++ ⟨n, .free⟩ :: r := by rw [hc]; simp
              have e3 : total (l ++ [(⟨s, .user q⟩ : Chunk)]) = total l + s := Dl.total_snoc
              have hFn : fmap 0 h.chunks (total l + s) = some n := by
                refine (fmap_iff (siz_pos hsz)).2 ⟨l ++ [⟨s, .user q⟩], r, hcq, ?_⟩
                rw [e3]; omega
              have hs0 := sep_of (base := base) hsz (by have := ok.cap; omega)
              obtain ⟨L1, u1, u2⟩ := unlinkChunk_sim hF hs0 sim hFn hd (fun x z h1 _ y h2 h3 => bins_scratch hF h1 h2 h3)
              have hagr1 : ∀ x, ¬Scratch t x → view base L1.mem x = t.mem x := u2.mem
              have ok1 := Tag.scratch_ok ok hagr1
              have k1 := u2.exact
              have v1 := hF.unlink hFn hd
              obtain ⟨g3, g4, -⟩ := next_head ok1 hc
              simp only at g3 g4
              have g4' : cinuse (view base L1.mem) (total l + s) = false := by rw [g4]; simp [inUse]
              obtain ⟨z1, z2⟩ := hF.size _ _ hFn
              have eL : tryRealloc base L (first base + total l) (need req) = if s + n - need req < minChunk then
                    some ({ L1 with mem := setInuse L1.mem (first base + total l) (s + n) }, true)
                  else (cut base L1 (first base + total l) (need req) (s + n - need req)).map fun c => (c, true) := by
                rw [lnk_try ok sim hc, if_neg hs, if_neg htp, if_neg hd, if_pos g2L', g1L, if_pos hfit, u1]
                rfl
              have eT : Tag.tryRealloc { t with mem := view base L1.mem } (total l) (need req) = if s + n - need req < minChunk then
                    some ({ t with bins := t.bins.unlink (total l + s) n, mem := setInuse (view base L1.mem) (total l) (s + n) }, true)
                  else (Tag.cut { t with mem := view base L1.mem, bins := t.bins.unlink (total l + s) n } (total l) (need req) (s + n - need req)).map (fun c' => (c', true)) := by
                rw [tag_try ok1 hc, if_neg hs, if_neg htp, if_neg hd, if_pos g4']
                simp only [g3]
                rw [if_pos hfit]
              by_cases hm : s + n - need req < minChunk
              · rw [if_pos hm] at eL eT
                refine ⟨_, _, _, true, hagr1, eL, eT, ?_⟩
                have k2 := Sim.setMem (t := { t with mem := view base L1.mem, bins := t.bins.unlink (total l + s) n }) (D' := fun _ => False)
                  (m1 := setInuse L1.mem (first base + total l) (s + n)) (m2 := setInuse (view base L1.mem) (total l) (s + n)) v1 k1
                  (by
                    intro y hy
                    rw [setInuse_ne (by omega) (by omega)])
                  (by
                    intro x z h1 h7 y h2 h3
                    obtain ⟨h4, h5⟩ := update_none h1
                    have h6 := hside x z h5
                    have h8 := hs0.sep _ _ _ _ hFn h5
                    rw [setInuse_ne (by omega) (by omega)])
                  (by
                    intro x _
                    rw [view_setInuse])
                exact k2.mono (fun x h => h.elim)
              · rw [if_neg hm] at eL eT
                have hm' := hm
                unfold minChunk at hm'
                obtain ⟨-, -, -, -, -, -, -, -, -, -, hpre1, hhead1, hy1, -, -, -⟩ := ok1.split hc
                simp only at hpre1 hhead1 hy1
                obtain ⟨⟨n1, n2⟩, s6⟩ := siz_cons.1 s5
                simp only at n1 n2
                simp only [total] at htop hcap h64
                have hy0 : Lay (view base L1.mem) t.topsize (total l + s + n) 0 r := hy1.2.2
                have hl1 : Pos (l ++ [⟨s, .user q⟩]) := siz_pos (siz_append.2 ⟨s1, siz_cons.2 ⟨⟨s3, s4⟩, fun c hc => by simp at hc⟩⟩)
                have htake : Function.update (fmap 0 (l ++ ⟨s, .user q⟩ :: ⟨n, .free⟩ :: r)) (total l + s) none = fmap 0 (l ++ ⟨s + n, .user req⟩ :: r) := by
                  rw [show l ++ ⟨s, .user q⟩ :: ⟨n, .free⟩ :: r = (l ++ [⟨s, .user q⟩]) ++ ⟨n, .free⟩ :: r by simp, ← Dl.total_snoc (req := q), Dl.fmap_take (q := q) hl1 n2]
                  rw [show (l ++ [⟨s, .user q⟩]) ++ ⟨n, .user q⟩ :: r = l ++ ⟨s, .user q⟩ :: ⟨n, .user q⟩ :: r by simp]
                  exact Dl.fmap_join
                have hu := v1
                rw [hc, htake, Dl.fmap_cut (req := req) hfit] at hu
                have e1 : total l + need req + (s + n - need req) = total l + s + n := by omega
                obtain ⟨L', t', a1, a2, a3⟩ := cut_lnk (base := base) (L := L1) (t := { t with mem := view base L1.mem, bins := t.bins.unlink (total l + s) n }) (nb := need req) (rs := s + n - need req)
                  (u := req) (b := 0) s1 s6 h16 (by omega) (by omega) (by omega) ht m1 (by simp only; omega) hpre1 hhead1 (by omega) (by rw [e1]; exact hy0) (by simp only; omega) hu
                  (by have := ok.cap; rw [hc] at this; simp only [total_append, total] at this; omega) (k1.mono (fun x h => h.elim))
                refine ⟨_, L', t', true, hagr1, ?_, ?_, a3⟩
                · rw [eL, a1]; rfl
                · rw [eT, a2]; rfl
            · refine simple L _ false ?_ ?_ (k0.mono (fun x h => h.elim))
              · rw [lnk_try ok sim hc, if_neg hs, if_neg htp, if_neg hd, if_pos g2L', g1L, if_neg hfit]
              · rw [tag_try ok0 hc, if_neg hs, if_neg htp, if_neg hd, if_pos g2']
                simp only [g1]
                rw [if_neg hfit]

end
end Verif.Lnk
