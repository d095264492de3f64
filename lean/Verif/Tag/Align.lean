import Verif.Tag.Realloc
/-!
# `mspace_memalign` and `mspace_calloc`, on memory
-/
namespace Verif.Tag
open Heap Dl

/-- facts about a chunk in use -/
theorem OK.split {c : CS} {h : Heap} (ok : OK c h) {l r : List Chunk} {s q : Nat} (hc : h.chunks = l ++ ⟨s, .user q⟩ :: r) :
    Siz l ∧ Siz r ∧ 16 ∣ s ∧ 0 < s ∧ 16 ∣ c.topsize ∧ 0 < c.topsize ∧ l.IsChain NotBoth ∧ c.top = total l + s + total r ∧
    total l + s + total r + c.topsize + 8 < 2 ^ 64 ∧ h.cap = total l + s + total r + c.topsize ∧
    Pre c.mem 0 1 l ∧ ld c.mem (total l + 8) % 2 = lastUse 1 l ∧ Lay c.mem c.topsize (total l + s) 1 r ∧ inuseBits c.mem (total l) ≠ 0 ∧
    Tag.chunksize c.mem (total l) = s ∧ BInv (fmap 0 (l ++ ⟨s, .user q⟩ :: r)) c.bins := by
  have hh : h = ⟨l ++ ⟨s, .user q⟩ :: r, some c.topsize⟩ := by rw [← hc, ← ok.rep.size]
  obtain ⟨ht, ht0⟩ := ok.inv.wf.top _ ok.rep.size
  have hsz := WF.siz ok.inv.wf
  rw [hc] at hsz
  obtain ⟨s1, s2⟩ := siz_append.1 hsz
  obtain ⟨⟨s3, s4⟩, s5⟩ := siz_cons.1 s2
  simp only at s3 s4
  have hlay := ok.rep.lay
  rw [hc] at hlay
  obtain ⟨m1, -, -, -, -⟩ := merged_split (by have := ok.inv.wf.merged; rw [hh] at this; exact this)
  have hb := ok.inv.bins
  rw [hc] at hb
  have hcap := ok.cap
  have htot : total h.chunks = total l + s + total r := by rw [hc, total_append]; simp only [total]; omega
  have h64 := ok.big
  have htop := ok.rep.top
  rw [htot] at hcap htop
  rw [hcap] at h64
  obtain ⟨hpre, hl2⟩ := (lay_append l _ 0 1).1 hlay
  rw [Nat.zero_add] at hl2
  have hlu := lastUse_lt (b := 1) (by omega) l
  obtain ⟨f1, f2, f3, f4⟩ := head_flags hl2.1 (by simp only; omega) hlu (inUse_lt _)
  simp only [inUse] at f3 f4
  exact ⟨s1, s5, s3, s4, ht, ht0, m1, htop, h64, hcap, hpre, by rw [hl2.1]; simp only [inUse]; omega, hl2.2.2, by rw [f3]; omega, f4, hb⟩

theorem trimEnd_sim {c : CS} {h : Heap} (ok : OK c h) {l r : List Chunk} {s req nb : Nat} (hc : h.chunks = l ++ ⟨s, .user req⟩ :: r) (hn : 16 ∣ nb) (hn0 : 32 ≤ nb) :
    ∃ c', trimEnd c (total l) nb = some c' ∧ Rep c' (Heap.trimEnd l s nb req r (some c.topsize)) ∧
      c'.bins = trimBins c.bins l (total l) s nb req r (some c.topsize) ∧ Eff h (Heap.trimEnd l s nb req r (some c.topsize)) (some (total l)) c.mem c'.mem := by
  obtain ⟨s1, s5, s3, s4, ht, ht0, m1, htop, h64, hcap, hpre, hhead, hy, f3, f4, hb⟩ := ok.split hc
  unfold trimEnd Heap.trimEnd trimBins
  rw [if_neg f3, f4]
  by_cases hm : nb + minChunk < s
  · simp only [if_pos hm]
    unfold minChunk at hm
    have hib := hb
    rw [fmap_cut (nb := nb) (req := req) (by omega)] at hib
    have e : total l + nb + (s - nb) = total l + s := by omega
    obtain ⟨c', k1, k2, k3, k4⟩ := cut_sim (nb := nb) (rs := s - nb) (u := req) (b := 1) s1 s5 hn (by omega) (by omega) (by omega) ht ht0 m1 (by omega) hpre hhead
      (by omega) (by rw [e]; exact hy) (by omega) hib
    rw [e] at k4
    refine ⟨c', k1, k2, k3, ?_⟩
    refine region_eff (E := endOf (total l + s) r) hc (fun x hx => k4 x (by omega)) ?_ ?_ ?_
    · intro q' z u ha
      have := at_bound ha
      have hx := end_bound (l := l) (s := s) (v := req) (r := r) (q := q') (z := z) (u := u) (at_right (at_cons.2 (.inr ha))) (by simp; omega)
      rcases hx with hx | hx
      · have := back_total l s
        have : 0 < z := (s5 _ (at_mem ha)).2
        omega
      · exact hx
    · have := endOf_le (e := total l + s) (r := r); omega
    · intro q' z u ha
      have hz : ∀ {o : Nat} {cs : List Chunk}, Siz cs → At o cs q' z (.user u) → 0 < z := fun hs ha => (hs _ (at_mem ha)).2
      refine dispose_kept (v := 0) q' z u ?_ ?_
      · rcases ha with ha | ha
        · exact at_left (at_left ha)
        · refine at_right (at_cons.2 (.inr ?_))
          rw [total_snoc]; simp only
          rw [e]; exact ha
      · rw [total_snoc]
        rcases ha with ha | ha
        · have := at_bound ha; have := hz s1 ha; simp; omega
        · have := at_bound ha; have := hz s5 ha; simp; omega
  · simp only [if_neg hm]
    have hh : h = ⟨l ++ ⟨s, .user req⟩ :: r, some c.topsize⟩ := by rw [← hc, ← ok.rep.size]
    refine ⟨c, rfl, ?_, rfl, ?_⟩
    · rw [← hh]; exact ok.rep
    · rw [← hh]; exact Eff.refl _ _ _

theorem giveLead_sim {c : CS} {h : Heap} (ok : OK c h) {l r : List Chunk} {s q d req : Nat} (hc : h.chunks = l ++ ⟨s, .user q⟩ :: r) (hd : 16 ∣ d) (hds : d < s) :
    ∃ c', giveLead c (total l) d = some c' ∧ Rep c' (Heap.giveLead l s d req r (some c.topsize)) ∧
      c'.bins = leadBins c.bins l (total l) s d req r (some c.topsize) ∧ Eff h (Heap.giveLead l s d req r (some c.topsize)) (some (total l)) c.mem c'.mem := by
  obtain ⟨s1, s5, s3, s4, ht, ht0, m1, htop, h64, hcap, hpre, hhead, hy, f3, f4, hb⟩ := ok.split hc
  unfold giveLead Heap.giveLead leadBins
  by_cases h0 : d = 0
  · simp only [if_pos h0]
    have hlay := ok.rep.lay
    rw [hc] at hlay
    refine ⟨c, rfl, ⟨lay_relabel hlay, ?_, rfl⟩, rfl, ⟨fun _ _ _ _ _ _ _ _ => rfl, ?_, fun _ _ => rfl⟩⟩
    · simp only [total_append, total]; omega
    · intro q z u ha hq
      rw [hc] at ha
      exact (split_user ha hq).elim at_left (fun ha => at_right (at_cons.2 (.inr ha)))
  · simp only [if_neg h0, if_neg f3, f4]
    have e : total l + d + (s - d) = total l + s := by omega
    have hsr : Siz (⟨s - d, .user req⟩ :: r) := siz_cons.2 ⟨⟨by simp only; omega, by simp only; omega⟩, s5⟩
    generalize hm1 : setInuse c.mem (total l + d) (s - d) = mm
    have hmm : ∀ x, x < total l + d + 8 ∨ (total l + d + 16 ≤ x ∧ x < total l + s + 8) ∨ total l + s + 16 ≤ x → mm x = c.mem x := by
      intro x hx
      rw [← hm1]
      exact setInuse_ne (by omega) (by omega)
    have hlay1 : Lay mm c.topsize (total l + d) (ld c.mem (total l + d + 8) % 2) (⟨s - d, .user req⟩ :: r) := by
      rw [← hm1]
      refine lay_user (setInuse_head (by omega) (by omega) (by omega) rfl) ?_
      unfold setInuse
      rw [e]
      exact lay_setPinuse (b := 1) ht s5 (by omega) (by omega) (lay_congr s5 (fun x hx => st_of_ne (by omega)) hy)
    have hlay2 : Lay (setInuse mm (total l) d) c.topsize 0 1 (l ++ ⟨d, .user 0⟩ :: ⟨s - d, .user req⟩ :: r) := by
      refine setInuse_lay (b := ld c.mem (total l + d + 8) % 2) s1 hsr hd (by omega) ht (by simp only [total]; omega) ?_ ?_ (by omega) hlay1
      · exact pre_congr s1 (fun x hx => hmm x (by omega)) hpre
      · rw [ld_congr (fun x h1 h2 => hmm x (by omega))]
        exact hhead
    have hib := hb
    rw [fmap_cut (nb := d) (req := 0) (by omega)] at hib
    have hib' : BInv (fmap 0 (l ++ ⟨d, .user 0⟩ :: ⟨s - d, .user req⟩ :: r)) c.bins := by
      rw [show l ++ ⟨d, .user 0⟩ :: ⟨s - d, .user req⟩ :: r = (l ++ [⟨d, .user 0⟩]) ++ ⟨s - d, .user req⟩ :: r by simp, fmap_relabel (q' := 0)]
      exact hib
    obtain ⟨c', k1, k2, k3, k4⟩ := dispose_sim (c := { c with mem := setInuse mm (total l) d }) false (siz_append.2 ⟨s1, siz_cons.2 ⟨⟨hd, by simp only; omega⟩, hsr⟩⟩) m1 ht
      (by simp only [total]; omega) hlay2 (by simp only [total]; omega) hib'
    simp only [endOf] at k4
    have hbk : total (back l d).1 ≤ total l := by
      cases hp : prevFree l with
      | none => rw [prevFree_none hp]
      | some n =>
        obtain ⟨l0, rfl, hb⟩ := prevFree_some hp
        rw [hb, total_append]; simp only; omega
    have hfr : ∀ x, x < total (back l d).1 + 8 ∨ (total l + d + 16 ≤ x ∧ x < total l + s + 8) ∨ total l + s + 16 ≤ x → c'.mem x = c.mem x := by
      intro x hx
      rw [k4 x (by omega), setInuse_ne (by omega) (by omega), hmm x (by omega)]
    refine ⟨c', k1, k2, k3, ?_, ?_, fun x hx => hfr x (by omega)⟩
    · refine same_of_region (a := total (back l d).1) (e := total l + s) (fun x hx => hfr x (by omega)) ?_
      intro q' z u ha hq
      rw [hc] at ha
      rcases split_user ha hq with ha | ha
      · have := at_bound (back_kept (s := d) ha); omega
      · have := at_bound ha; omega
    · intro q' z u ha hq
      rw [hc] at ha
      unfold Heap.dispose
      refine fwd_kept ?_
      rcases split_user ha hq with ha | ha
      · exact .inl (back_kept ha)
      · right
        rw [back_total]
        refine at_cons.2 (.inr ?_)
        simp only
        rw [e]; exact ha

theorem total_dvd {l : List Chunk} (h : Siz l) : 16 ∣ total l := by
  induction l with
  | nil => simp [total]
  | cons c l ih =>
    obtain ⟨h1, h2⟩ := siz_cons.1 h
    have := ih h2
    simp only [total]; omega

theorem memalign_full {a0 : Nat} {c : CS} {h : Heap} {al : Nat} (ha : 16 ∣ a0) (h16 : 16 ∣ al) (h32 : 32 ≤ al) (ok : OK c h) (req : Nat) :
    ∃ c' h' o, memalign a0 c al req = some (c', o) ∧ Dl.memalign a0 h c.bins al req = some ((h', c'.bins), o) ∧ OK c' h' ∧ h'.cap = h.cap ∧
      Eff h h' none c.mem c'.mem := by
  obtain ⟨hR, bR, oR, eR, eR2, iR⟩ := memalign_ok ha h16 h32 ok.inv req
  have hcapR := (memalign_spec ha h16 h32 ok.inv.wf eR2).2.1
  suffices key : ∃ c' h' o, memalign a0 c al req = some (c', o) ∧ Dl.memalign a0 h c.bins al req = some ((h', c'.bins), o) ∧ Rep c' h' ∧ Eff h h' none c.mem c'.mem by
    obtain ⟨c', h', o, k1, k2, k3, k4⟩ := key
    rw [k2] at eR
    injection eR with eR
    injection eR with e3 e4
    injection e3 with e5 e6
    subst e5; subst e6
    exact ⟨c', h', o, k1, k2, ⟨iR, k3, by rw [hcapR]; exact ok.big⟩, hcapR, k4⟩
  clear eR eR2 iR hcapR
  unfold memalign Dl.memalign
  by_cases hr : req < maxRequest - al
  · rw [if_pos hr, if_pos hr]
    obtain ⟨h1, e1, ok1, cap1, ef1, new1⟩ := malloc_full ok (need req + al + minChunk - 8)
    have hm : malloc c (need req + al + minChunk - 8) = ((malloc c (need req + al + minChunk - 8)).1, (malloc c (need req + al + minChunk - 8)).2) := rfl
    rw [e1]
    generalize hx : (malloc c (need req + al + minChunk - 8)).2 = o at *
    generalize hc2 : (malloc c (need req + al + minChunk - 8)).1 = c1 at *
    rw [hm]
    cases o with
    | none => exact ⟨c1, h1, none, rfl, rfl, ok1.rep, ef1⟩
    | some p =>
      simp only
      obtain ⟨⟨s, hat⟩, hfresh⟩ := new1 p rfl
      obtain ⟨l, s', r, hf⟩ := find_user ok1.inv.wf.good (at_users.2 ⟨s, hat⟩)
      obtain ⟨hc, hp⟩ := find_some hf
      obtain ⟨rfl, -⟩ := at_unique (WF.siz ok1.inv.wf) hat ⟨l, r, hc, hp⟩
      rw [Nat.zero_add] at hp
      simp only [hf]
      obtain ⟨s1, s5, s3, s4, -⟩ := ok1.split hc
      have hp16 : 16 ∣ p := by rw [← hp]; exact total_dvd s1
      obtain ⟨k1, k2, k3, k4⟩ := lead_ok h16 h32 (show 16 ∣ a0 + p by omega)
      generalize lead al (a0 + p) = d at *
      have hsize : need req + al + 32 ≤ s := by
        have h1 := (ok1.inv.wf.good _ (at_mem hat)).2.2 _ rfl
        simp only [minChunk] at h1
        have h2 := need_dvd req
        have h3 := need_ge req
        have h4 : ∀ x, 23 ≤ x → need x = (x + 23) / 16 * 16 := fun x hx => by unfold need; rw [if_neg (by omega)]
        rw [h4 _ (by omega)] at h1
        omega
      have hn32 := need_ge req
      have hh : h1 = ⟨l ++ ⟨s, .user (need req + al + minChunk - 8)⟩ :: r, h1.top⟩ := by rw [← hc]
      obtain ⟨w2, cap2, u2⟩ := giveLead_spec (req := req) (d := d) (hh ▸ ok1.inv.wf) (show 0 + total l = p by omega) k2 (by omega)
      obtain ⟨c2, g1, g2, g3, g4⟩ := giveLead_sim ok1 (req := req) hc k2 (show d < s by omega)
      rw [hp] at g1 g3 g4
      rw [ok1.rep.size] at w2 cap2 u2 ⊢
      rw [g1]
      simp only [Option.bind_some]
      have hb2 : BInv (fmap 0 (Heap.giveLead l s d req r (some c1.topsize)).chunks) (leadBins c1.bins l p s d req r (some c1.topsize)) := by
        have ib := ok1.inv.bins
        rw [hc] at ib
        have pl : Pos l := fun c hc => (s1 c hc).2
        have pr : Pos r := fun c hc => (s5 c hc).2
        unfold Heap.giveLead leadBins
        by_cases hd0 : d = 0
        · rw [if_pos hd0, if_pos hd0]
          rwa [fmap_relabel (q' := req)] at ib
        · rw [if_neg hd0, if_neg hd0]
          have hcut : fmap 0 (l ++ ⟨s, .user (need req + al + minChunk - 8)⟩ :: r) = fmap 0 (l ++ ⟨d, .user req⟩ :: ⟨s - d, .user req⟩ :: r) := by
            rw [fmap_cut (nb := d) (req := req) (by omega)]
            simp
          rw [hcut] at ib
          rw [← hp]
          refine dispose_spec ib pl ⟨k2, by omega⟩ ?_
          intro c hc'
          rcases List.mem_cons.1 hc' with rfl | hc'
          · show 0 < s - d
            omega
          · exact pr c hc'
      have cap2' : (Heap.giveLead l s d req r (some c1.topsize)).cap = h1.cap := by
        rw [cap2]
        conv_rhs => rw [hh, ok1.rep.size]
      rw [← g3] at hb2 ⊢
      generalize hgl : Heap.giveLead l s d req r (some c1.topsize) = h2 at *
      have ok2 : OK c2 h2 := ⟨⟨w2, hb2, by rw [cap2']; exact ok1.inv.cap⟩, g2, by rw [cap2']; exact ok1.big⟩
      have hu2 : (p + d, req) ∈ users 0 h2.chunks := u2.mem_iff.2 (by simp)
      obtain ⟨l2, s2, r2, hf2⟩ := find_user w2.good hu2
      obtain ⟨hc2', hp2⟩ := find_some hf2
      rw [Nat.zero_add] at hp2
      simp only [hf2]
      obtain ⟨c3, j1, j2, j3, j4⟩ := trimEnd_sim ok2 hc2' (need_dvd req) hn32
      rw [hp2] at j1 j3 j4
      rw [j1, ok2.rep.size]
      refine ⟨c3, _, some (p + d), rfl, by rw [j3], j2, ?_, ?_, ?_⟩
      · intro q z u hq _ x hx1 hx2
        have a1 := ef1.kept q z u hq (by simp)
        have n1 : q ≠ p := by rintro rfl; exact hfresh _ _ hq
        have hz : 0 < z := (WF.siz ok.inv.wf _ (at_mem hq)).2
        have n2 : q ≠ p + d := by
          rcases at_apart (WF.siz ok1.inv.wf) a1 hat with e | e | e <;> omega
        have a2 := g4.kept q z u a1 (by simpa using n1)
        rw [j4.same q z u a2 (by simpa using n2) x hx1 hx2, g4.same q z u a1 (by simpa using n1) x hx1 hx2, ef1.same q z u hq (by simp) x hx1 hx2]
      · intro q z u hq _
        have a1 := ef1.kept q z u hq (by simp)
        have n1 : q ≠ p := by rintro rfl; exact hfresh _ _ hq
        have hz : 0 < z := (WF.siz ok.inv.wf _ (at_mem hq)).2
        have n2 : q ≠ p + d := by
          rcases at_apart (WF.siz ok1.inv.wf) a1 hat with e | e | e <;> omega
        exact j4.kept q z u (g4.kept q z u a1 (by simpa using n1)) (by simpa using n2)
      · intro x hx
        rw [j4.edge x (by rw [cap2', cap1]; exact hx), g4.edge x (by rw [cap1]; exact hx), ef1.edge x hx]
  · rw [if_neg hr, if_neg hr]
    exact ⟨c, h, none, rfl, rfl, ok.rep, Eff.refl _ _ _⟩

/-- `mspace_calloc` -/
theorem calloc_full {c : CS} {h : Heap} (ok : OK c h) (n sz : Nat) :
    ∃ h', Dl.malloc h c.bins (callocReq n sz) = some ((h', (calloc c n sz).1.bins), (calloc c n sz).2) ∧ OK (calloc c n sz).1 h' ∧ h'.cap = h.cap ∧
      Eff h h' none c.mem (calloc c n sz).1.mem ∧
      ∀ p, (calloc c n sz).2 = some p → ∀ k, k < callocReq n sz → (calloc c n sz).1.mem (p + 16 + k) = 0 := by
  obtain ⟨h', e1, ok1, cap1, ef1, new1⟩ := malloc_full ok (callocReq n sz)
  have hm : malloc c (callocReq n sz) = ((malloc c (callocReq n sz)).1, (malloc c (callocReq n sz)).2) := rfl
  unfold calloc
  rw [e1]
  generalize hx : (malloc c (callocReq n sz)).2 = o at *
  generalize hc2 : (malloc c (callocReq n sz)).1 = c1 at *
  rw [hm]
  cases o with
  | none => exact ⟨h', rfl, ok1, cap1, ef1, fun p e => by cases e⟩
  | some p =>
    obtain ⟨⟨z, hat⟩, hfresh⟩ := new1 p rfl
    have hroom := ok1.room hat
    have hw : ∀ x, x < p + 16 ∨ p + z + 8 ≤ x → (fun x => if p + 16 ≤ x ∧ x < p + 16 + callocReq n sz then 0 else c1.mem x) x = c1.mem x := by
      intro x hx
      simp only
      rw [if_neg (by omega)]
    refine ⟨h', rfl, write_ok ok1 hat hw, cap1, ⟨?_, ef1.kept, ?_⟩, ?_⟩
    · intro q z' u ha hq x hx1 hx2
      have ha1 := ef1.kept q z' u ha hq
      rw [← ef1.same q z' u ha hq x hx1 hx2]
      refine hw x ?_
      rcases at_apart (WF.siz ok1.inv.wf) hat ha1 with e | e | e
      · exact absurd ha (by rw [← e]; exact hfresh _ _)
      · omega
      · omega
    · intro x hx
      rw [← ef1.edge x hx]
      refine hw x ?_
      rw [cap1] at hroom
      omega
    · intro p' e k hk
      injection e with e
      subst e
      simp only
      rw [if_pos (by omega)]

end Verif.Tag
