import Verif.Tag.Free
/-!
# `mspace_realloc`, on memory
-/
namespace Verif.Tag
open Heap Dl

theorem lay_relabel {m : Mem} {t : Nat} {l r : List Chunk} {s q q' : Nat} (h : Lay m t 0 1 (l ++ ⟨s, .user q⟩ :: r)) : Lay m t 0 1 (l ++ ⟨s, .user q'⟩ :: r) := by
  obtain ⟨h1, h2⟩ := (lay_append l _ 0 1).1 h
  exact (lay_append l _ 0 1).2 ⟨h1, h2.1, (fun h => by cases h), h2.2.2⟩

theorem endOf_chain {e n : Nat} {r : List Chunk} (h : ((⟨n, .free⟩ : Chunk) :: r).IsChain NotBoth) : endOf e r = e := by
  cases r with
  | nil => rfl
  | cons c r =>
    obtain ⟨k, u⟩ := c
    cases u with
    | free => exact absurd ⟨rfl, rfl⟩ ((List.isChain_cons.1 h).1 ⟨k, .free⟩ (by simp))
    | user q => rfl
    | dead => rfl

/-- writes to a region that starts at the chunk `total l` -/
theorem region_eff {h h' : Heap} {l r : List Chunk} {s v E : Nat} {m m' : Mem} (hc : h.chunks = l ++ ⟨s, .user v⟩ :: r)
    (f : ∀ x, x < total l + 8 ∨ E + 16 ≤ x → m' x = m x) (hE : ∀ q z u, At (total l + s) r q z (.user u) → E ≤ q) (hcap : E + 16 ≤ h.cap)
    (hk : ∀ q z u, At 0 l q z (.user u) ∨ At (total l + s) r q z (.user u) → At 0 h'.chunks q z (.user u)) : Eff h h' (some (total l)) m m' where
  same := by
    refine same_of_region f ?_
    intro q z u ha hq
    rw [hc] at ha
    rcases split_user ha hq with ha | ha
    · have := at_bound ha; omega
    · exact .inr (hE q z u ha)
  kept q z u ha hq := by
    rw [hc] at ha
    exact hk q z u (split_user ha hq)
  edge x hx := f x (by omega)

theorem tryRealloc_sim {c : CS} {h : Heap} (ok : OK c h) {l r : List Chunk} {s q : Nat} (hc : h.chunks = l ++ ⟨s, .user q⟩ :: r) (req : Nat) :
    (∀ h', Heap.tryRealloc l s (need req) req r (some c.topsize) = some h' →
      ∃ c', tryRealloc c (total l) (need req) = some (c', true) ∧ Rep c' h' ∧ c'.bins = reallocBins c.bins l (total l) s (need req) req r (some c.topsize) ∧
        Eff h h' (some (total l)) c.mem c'.mem ∧ ∀ x, total l + 16 ≤ x → x < total l + min s (need req) + 8 → c'.mem x = c.mem x) ∧
    (Heap.tryRealloc l s (need req) req r (some c.topsize) = none → tryRealloc c (total l) (need req) = some (c, false)) := by
  have hh : h = ⟨l ++ ⟨s, .user q⟩ :: r, some c.topsize⟩ := by rw [← hc, ← ok.rep.size]
  obtain ⟨ht, ht0⟩ := ok.inv.wf.top _ ok.rep.size
  have hsz := WF.siz ok.inv.wf
  rw [hc] at hsz
  obtain ⟨s1, s2⟩ := siz_append.1 hsz
  obtain ⟨⟨s3, s4⟩, s5⟩ := siz_cons.1 s2
  simp only at s3 s4
  have hlay := ok.rep.lay
  rw [hc] at hlay
  obtain ⟨m1, m2, m3, m4, m5⟩ := merged_split (by have := ok.inv.wf.merged; rw [hh] at this; exact this)
  have hb := ok.inv.bins
  rw [hc] at hb
  have hcap := ok.cap
  have htot : total h.chunks = total l + s + total r := by rw [hc, total_append]; simp only [total]; omega
  have h64 := ok.big
  have htop := ok.rep.top
  rw [htot] at hcap htop
  rw [hcap] at h64
  obtain ⟨hpre, hl2⟩ := (lay_append l _ 0 1).1 hlay
  rw [Nat.zero_add] at hl2
  have hlu := lastUse_lt (b := 1) (by omega) l
  obtain ⟨f1, f2, f3, f4⟩ := head_flags hl2.1 (by simp only; omega) hlu (inUse_lt _)
  simp only [inUse] at f3 f4
  have hhead : ld c.mem (total l + 8) % 2 = lastUse 1 l := by rw [hl2.1]; simp only [inUse]; omega
  have hy : Lay c.mem c.topsize (total l + s) 1 r := hl2.2.2
  have hnx : pinuse c.mem (total l + s) = true := by rw [lay_flags ht s5 (by omega) hy]; rfl
  have h16 := need_dvd req
  have h32 := need_ge req
  have gq : need q ≤ s := (ok.inv.wf.good ⟨s, .user q⟩ (by rw [hc]; simp)).2.2 q rfl
  have hq32 := need_ge q
  have pl : Pos l := fun c hc => (s1 c hc).2
  have pr : Pos r := fun c hc => (s5 c hc).2
  unfold tryRealloc Heap.tryRealloc reallocBins
  simp only [f4]
  have hcond : ¬(inuseBits c.mem (total l) = 1 ∨ total l + s ≤ total l ∨ pinuse c.mem (total l + s) = false ∨ inuseBits c.mem (total l) = 0) := by
    rw [f3, hnx]; simp; omega
  simp only [if_neg hcond]
  generalize hnb : need req = nb at *
  by_cases hs : nb ≤ s
  · simp only [if_pos hs]
    refine ⟨fun h' e => ?_, fun e => by cases e⟩
    injection e with e
    subst e
    unfold shrink
    by_cases hm : s - nb < minChunk
    · simp only [if_neg (show ¬minChunk ≤ s - nb by omega), if_pos hm]
      refine ⟨c, rfl, ⟨lay_relabel hlay, ?_, rfl⟩, rfl, ⟨fun _ _ _ _ _ _ _ _ => rfl, ?_, fun _ _ => rfl⟩, fun _ _ _ => rfl⟩
      · simp only [total_append, total]; omega
      · intro q z u ha hq
        rw [hc] at ha
        exact (split_user ha hq).elim at_left (fun ha => at_right (at_cons.2 (.inr ha)))
    · simp only [if_pos (show minChunk ≤ s - nb by omega), if_neg hm]
      unfold minChunk at hm
      have hib := hb
      rw [fmap_cut (req := req) hs] at hib
      have e : total l + nb + (s - nb) = total l + s := by omega
      obtain ⟨c', k1, k2, k3, k4⟩ := cut_sim (nb := nb) (rs := s - nb) (u := req) (b := 1) s1 s5 h16 (by omega) (by omega) (by omega) ht ht0 m1 (by omega) hpre hhead
        (by omega) (by rw [e]; exact hy) (by omega) hib
      rw [e] at k4
      rw [k1]
      refine ⟨c', rfl, k2, k3, ?_, fun x h1 h2 => k4 x (by omega)⟩
      refine region_eff (E := endOf (total l + s) r) hc (fun x hx => k4 x (by omega)) ?_ ?_ ?_
      · intro q' z u ha
        have := at_bound ha
        have hx := end_bound (l := l) (s := s) (v := q) (r := r) (q := q') (z := z) (u := u) (at_right (at_cons.2 (.inr ha))) (by simp; omega)
        rcases hx with hx | hx
        · have := back_total l s
          have : 0 < z := (s5 _ (at_mem ha)).2
          omega
        · exact hx
      · have := endOf_le (e := total l + s) (r := r); omega
      · intro q' z u ha
        have hz : ∀ {o : Nat} {cs : List Chunk}, Siz cs → At o cs q' z (.user u) → 0 < z := fun hs ha => (hs _ (at_mem ha)).2
        refine dispose_kept (v := 0) q' z u ?_ ?_
        · rcases ha with ha | ha
          · exact at_left (at_left ha)
          · refine at_right (at_cons.2 (.inr ?_))
            rw [total_snoc]; simp only
            rw [e]; exact ha
        · rw [total_snoc]
          rcases ha with ha | ha
          · have := at_bound ha; have := hz s1 ha; simp; omega
          · have := at_bound ha; have := hz s5 ha; simp; omega
  · simp only [if_neg hs]
    cases r with
    | nil =>
      simp only [total, Nat.add_zero] at htop hcap h64
      simp only [if_pos htop.symm]
      by_cases hfit : nb < s + c.topsize
      · simp only [if_pos hfit]
        refine ⟨fun h' e => ?_, fun e => by cases e⟩
        injection e with e
        subst e
        have hfr : ∀ x, x < total l + 8 ∨ (total l + 16 ≤ x ∧ x < total l + nb + 8) ∨ total l + nb + 16 ≤ x →
            st (setInuse c.mem (total l) nb) (total l + nb + 8) ((s + c.topsize - nb) ||| 1) x = c.mem x := by
          intro x hx
          rw [st_of_ne (by omega), setInuse_ne (by omega) (by omega)]
        refine ⟨_, rfl, ⟨?_, ?_, rfl⟩, rfl, ?_, fun x h1 h2 => hfr x (by omega)⟩
        · refine lay_build s1 hpre (fun x hx => hfr x (.inl hx)) (lay_user ?_ ?_)
          · rw [ld_st_ne (by omega), setInuse_head h16 (by omega) (by omega) hhead]
          · show ld _ _ = _
            rw [ld_st_same, or_one (by omega)]
            rw [or_one (by omega)]; omega
        · simp only [total_append, total]; omega
        · refine region_eff (E := total l + nb) hc (fun x hx => hfr x (by omega)) ?_ ?_ ?_
          · rintro q' z u ⟨a, b, e, -⟩; simp at e
          · omega
          · rintro q' z u (ha | ⟨a, b, e, -⟩)
            · exact at_left ha
            · simp at e
      · simp only [if_neg hfit]
        exact ⟨(fun h' e => by cases e), fun _ => trivial⟩
    | cons d r =>
      obtain ⟨n, w⟩ := d
      obtain ⟨⟨n1, n2⟩, s6⟩ := siz_cons.1 s5
      simp only at n1 n2
      simp only [total] at htop hcap h64
      simp only [if_neg (show total l + s ≠ c.top by omega)]
      obtain ⟨g1, g2, g3, g4⟩ := head_flags hy.1 (by simp only; omega) (by omega) (inUse_lt _)
      simp only at g4
      have hF := fmap_of_find (p := total l + s) (cs := l ++ ⟨s, .user q⟩ :: ⟨n, w⟩ :: r) (fun c hc => (hsz c hc).2) (l := l ++ [⟨s, .user q⟩]) (c := ⟨n, w⟩) (r := r) (by
        have := find_of_split (l ++ [⟨s, .user q⟩]) ⟨n, w⟩ r (fun c hc' => ok.inv.wf.good c (by
          rw [hc]
          simp only [List.mem_append, List.mem_cons, List.not_mem_nil, or_false] at hc' ⊢
          tauto)) 0
        rw [total_snoc, Nat.zero_add] at this
        simpa using this)
      have hbusy : inUse w = 1 → (if c.bins.dv = some (total l + s) then
            if nb ≤ s + c.bins.dvsize then
              if minChunk ≤ s + c.bins.dvsize - nb then
                some ({ c with mem := clearPinuse (setFree (setInuse c.mem (total l) nb) (total l + nb) (s + c.bins.dvsize - nb)) (total l + nb + (s + c.bins.dvsize - nb)),
                               bins := { c.bins with dv := some (total l + nb), dvsize := s + c.bins.dvsize - nb } }, true)
              else some ({ c with mem := setInuse c.mem (total l) (s + c.bins.dvsize), bins := { c.bins with dv := none, dvsize := 0 } }, true)
            else some (c, false)
          else if cinuse c.mem (total l + s) = false then
            if nb ≤ s + n then
              if s + n - nb < minChunk then some ({ c with bins := c.bins.unlink (total l + s) n, mem := setInuse c.mem (total l) (s + n) }, true)
              else (cut { c with bins := c.bins.unlink (total l + s) n } (total l) nb (s + n - nb)).map (fun c' => (c', true))
            else some (c, false)
          else some (c, false)) = some (c, false) := by
        intro hw
        have hnf : w ≠ .free := by rintro rfl; simp [inUse] at hw
        simp only [if_neg hnf] at hF
        rw [if_neg (fun hd => by rw [hb.dv _ hd] at hF; cases hF), if_neg (by rw [g2]; simp [hw])]
      simp only [g4]
      cases w with
      | user q' => exact ⟨(fun h' e => by cases e), fun _ => hbusy rfl⟩
      | dead => exact ⟨(fun h' e => by cases e), fun _ => hbusy rfl⟩
      | free =>
        simp only [if_true] at hF
        have hy0 : Lay c.mem c.topsize (total l + s + n) 0 r := hy.2.2
        have hE : ∀ q' z u, At (total l + s) (⟨n, .free⟩ :: r) q' z (.user u) → At (total l + s + n) r q' z (.user u) := by
          intro q' z u ha
          rcases at_cons.1 ha with ⟨-, e⟩ | ha
          · cases e
          · exact ha
        have hE' : ∀ q' z u, At (total l + s) (⟨n, .free⟩ :: r) q' z (.user u) → total l + s + n ≤ q' := fun q' z u ha => (at_bound (hE q' z u ha)).1
        have hkeep : nb ≤ s + n → ∀ q' z u, At 0 l q' z (.user u) ∨ At (total l + s) (⟨n, .free⟩ :: r) q' z (.user u) →
            At 0 (l ++ carve (s + n) nb req ++ r) q' z (.user u) := by
          intro hfit q' z u ha
          rw [List.append_assoc]
          rcases ha with ha | ha
          · exact at_left ha
          · refine at_right (at_append.2 (.inr ?_))
            rw [carve_total hfit, ← Nat.add_assoc]
            exact hE q' z u ha
        have htot2 : nb ≤ s + n → c.top = total (l ++ carve (s + n) nb req ++ r) := by
          intro hfit
          rw [total_append, total_append, carve_total hfit]; omega
        have hwhole : Lay (setInuse c.mem (total l) (s + n)) c.topsize 0 1 (l ++ ⟨s + n, .user req⟩ :: r) :=
          setInuse_lay (b := 0) s1 s6 (by omega) (by omega) ht (by omega) hpre hhead (by omega) (by rw [← Nat.add_assoc]; exact hy0)
        have hwf : ∀ x, x < total l + 8 ∨ (total l + 16 ≤ x ∧ x < total l + s + n + 8) ∨ total l + s + n + 16 ≤ x → setInuse c.mem (total l) (s + n) x = c.mem x :=
          fun x hx => setInuse_ne (by omega) (by omega)
        by_cases hd : c.bins.dv = some (total l + s)
        · simp only [if_pos hd]
          have hds : c.bins.dvsize = n := by
            have := hb.dv _ hd
            rw [hF] at this
            injection this with this
            exact this.symm
          rw [hds]
          by_cases hfit : nb ≤ s + n
          · simp only [if_pos hfit]
            refine ⟨fun h' e => ?_, fun e => by cases e⟩
            injection e with e
            subst e
            by_cases hm : minChunk ≤ s + n - nb
            · simp only [if_pos hm]
              have hm' := hm
              unfold minChunk at hm'
              have e1 : total l + nb + (s + n - nb) = total l + s + n := by omega
              rw [e1]
              have hfr : ∀ x, x < total l + 8 ∨ (total l + 16 ≤ x ∧ x < total l + nb + 8) ∨ total l + s + n + 16 ≤ x →
                  clearPinuse (setFree (setInuse c.mem (total l) nb) (total l + nb) (s + n - nb)) (total l + s + n) x = c.mem x := by
                intro x hx
                rw [clearPinuse_ne (by omega), setFree_ne (by omega) (by omega), setInuse_ne (by omega) (by omega)]
              refine ⟨_, rfl, ⟨?_, htot2 hfit, rfl⟩, rfl, ?_, fun x h1 h2 => hfr x (by omega)⟩
              · unfold carve
                rw [if_neg (by omega)]
                simp only [List.append_assoc, List.cons_append, List.nil_append]
                refine lay_build s1 hpre (fun x hx => hfr x (.inl hx)) (lay_user ?_ (lay_free ?_ ?_ ?_))
                · unfold clearPinuse
                  rw [ld_st_ne (by omega)]
                  unfold setFree setFoot
                  rw [ld_st_ne (by omega), ld_st_ne (by omega), setInuse_head h16 (by omega) (by omega) hhead]
                · unfold clearPinuse
                  rw [ld_st_ne (by omega), setFree_head (by omega) (by omega) (by omega)]
                · unfold clearPinuse
                  rw [ld_st_ne (by omega), setFree_foot (by omega)]
                · rw [e1]
                  refine lay_clearPinuse (b := 0) ht s6 (by omega) (by omega) ?_
                  exact lay_congr s6 (fun x hx => by rw [setFree_ne (by omega) (by omega), setInuse_ne (by omega) (by omega)]) hy0
              · exact region_eff (E := total l + s + n) hc (fun x hx => hfr x (by omega)) hE' (by omega) (hkeep hfit)
            · simp only [if_neg hm]
              refine ⟨_, rfl, ⟨?_, htot2 hfit, rfl⟩, rfl, ?_, fun x h1 h2 => hwf x (by omega)⟩
              · unfold carve
                rw [if_pos (by omega)]
                simp only [List.append_assoc, List.cons_append, List.nil_append]
                exact hwhole
              · exact region_eff (E := total l + s + n) hc (fun x hx => hwf x (by omega)) hE' (by omega) (hkeep hfit)
          · simp only [if_neg hfit]
            exact ⟨(fun h' e => by cases e), fun _ => trivial⟩
        · simp only [if_neg hd]
          simp only [if_pos (show cinuse c.mem (total l + s) = false by rw [g2]; simp [inUse])]
          by_cases hfit : nb ≤ s + n
          · simp only [if_pos hfit]
            refine ⟨fun h' e => ?_, fun e => by cases e⟩
            injection e with e
            subst e
            by_cases hm : s + n - nb < minChunk
            · simp only [if_pos hm]
              refine ⟨_, rfl, ⟨?_, htot2 hfit, rfl⟩, rfl, ?_, fun x h1 h2 => hwf x (by omega)⟩
              · unfold carve
                rw [if_pos (by omega)]
                simp only [List.append_assoc, List.cons_append, List.nil_append]
                exact hwhole
              · exact region_eff (E := total l + s + n) hc (fun x hx => hwf x (by omega)) hE' (by omega) (hkeep hfit)
            · simp only [if_neg hm]
              have hm' := hm
              unfold minChunk at hm'
              have e0 : l ++ ⟨s, .user q⟩ :: ⟨n, .free⟩ :: r = (l ++ [⟨s, .user q⟩]) ++ ⟨n, .free⟩ :: r := by simp
              have hl1 : Pos (l ++ [⟨s, .user q⟩]) := pos_snoc pl (by omega)
              have htake : Function.update (fmap 0 (l ++ ⟨s, .user q⟩ :: ⟨n, .free⟩ :: r)) (total l + s) none = fmap 0 (l ++ ⟨s + n, .user req⟩ :: r) := by
                rw [e0, ← total_snoc (req := q), fmap_take (q := q) hl1 n2]
                rw [show (l ++ [⟨s, .user q⟩]) ++ ⟨n, .user q⟩ :: r = l ++ ⟨s, .user q⟩ :: ⟨n, .user q⟩ :: r by simp]
                exact fmap_join
              have hu := hb.unlink hF hd
              rw [htake, fmap_cut (req := req) hfit] at hu
              have e1 : total l + nb + (s + n - nb) = total l + s + n := by omega
              obtain ⟨c', k1, k2, k3, k4⟩ := cut_sim (c := { c with bins := c.bins.unlink (total l + s) n }) (nb := nb) (rs := s + n - nb) (u := req) (b := 0) s1 s6 h16 (by omega)
                (by omega) (by omega) ht ht0 m1 (by simp only; omega) hpre hhead (by omega) (by rw [e1]; exact hy0) (by simp only; omega) hu
              simp only at k2 k3 k4
              rw [e1, endOf_chain m3] at k4
              rw [k1]
              have hdis : Heap.dispose (l ++ [⟨nb, .user req⟩]) (s + n - nb) r (some c.topsize) = ⟨l ++ carve (s + n) nb req ++ r, some c.topsize⟩ := by
                unfold Heap.dispose carve
                rw [prevFree_none prevFree_snoc, if_neg hm]
                cases r with
                | nil => exact absurd rfl (m5 rfl ⟨n, .free⟩ (by simp))
                | cons d r =>
                  obtain ⟨n', u⟩ := d
                  rw [List.isChain_cons] at m3
                  cases u with
                  | free => exact absurd ⟨rfl, rfl⟩ (m3.1 ⟨n', .free⟩ (by simp))
                  | user q' => simp [fwd]
                  | dead => simp [fwd]
              rw [hdis] at k2
              refine ⟨c', rfl, k2, k3, ?_, fun x h1 h2 => k4 x (by omega)⟩
              exact region_eff (E := total l + s + n) hc (fun x hx => k4 x (by omega)) hE' (by omega) (hkeep hfit)
          · simp only [if_neg hfit]
            exact ⟨(fun h' e => by cases e), fun _ => trivial⟩

/-! ## With the invariants -/

theorem malloc_full {c : CS} {h : Heap} (ok : OK c h) (req : Nat) :
    ∃ h', Dl.malloc h c.bins req = some ((h', (malloc c req).1.bins), (malloc c req).2) ∧ OK (malloc c req).1 h' ∧ h'.cap = h.cap ∧
      Eff h h' none c.mem (malloc c req).1.mem ∧
      ∀ p, (malloc c req).2 = some p → (∃ z, At 0 h'.chunks p z (.user req)) ∧ ∀ z u, ¬At 0 h.chunks p z (.user u) := by
  obtain ⟨h', e, rp, ef, k⟩ := malloc_sim ok req
  obtain ⟨h1, b1, o, e1, e2, i1⟩ := malloc_ok ok.inv req
  rw [e] at e1
  injection e1 with e1
  injection e1 with e3 e4
  injection e3 with e5 e6
  subst e5; subst e6
  have hcap := (malloc_spec ok.inv.wf e2).2.1
  exact ⟨h', e, ⟨i1, rp, by rw [hcap]; exact ok.big⟩, hcap, ef, k⟩

theorem free_full {c : CS} {h : Heap} (ok : OK c h) {p q : Nat} (hu : (p, q) ∈ users 0 h.chunks) :
    ∃ c' h', free c p = some c' ∧ Dl.free h c.bins p = some (h', c'.bins) ∧ OK c' h' ∧ h'.cap = h.cap ∧ Eff h h' (some p) c.mem c'.mem := by
  obtain ⟨c', h', e, e', rp, ef⟩ := free_sim ok hu
  obtain ⟨h1, b1, e1, e2, i1⟩ := free_ok ok.inv hu
  rw [e'] at e1
  injection e1 with e1
  injection e1 with e5 e6
  subst e5; subst e6
  obtain ⟨h2, e3, -, hcap, -⟩ := free_spec ok.inv.wf hu
  rw [e2] at e3
  injection e3 with e3
  subst e3
  exact ⟨c', h', e, e', ⟨i1, rp, by rw [hcap]; exact ok.big⟩, hcap, ef⟩

/-! ## `mspace_realloc` -/

/-- a user's bytes are soft -/
theorem write_lay {m m' : Mem} {t : Nat} {cs : List Chunk} {p z u : Nat} (hs : Siz cs) (ha : At 0 cs p z (.user u))
    (h : ∀ x, x < p + 16 ∨ p + z + 8 ≤ x → m' x = m x) (hy : Lay m t 0 1 cs) : Lay m' t 0 1 cs := by
  refine lay_soft hs ?_ hy
  intro x _ hx
  refine h x ?_
  by_contra hc
  exact hx (.inl ⟨p, z, .user u, ha, by omega, by simp only [inUse]; omega⟩)

theorem write_ok {c : CS} {h : Heap} (ok : OK c h) {m' : Mem} {p z u : Nat} (ha : At 0 h.chunks p z (.user u))
    (e : ∀ x, x < p + 16 ∨ p + z + 8 ≤ x → m' x = c.mem x) : OK { c with mem := m' } h :=
  ⟨ok.inv, ⟨write_lay (WF.siz ok.inv.wf) ha e ok.rep.lay, ok.rep.top, ok.rep.size⟩, ok.big⟩

/-- room for the request -/
theorem OK.room {c : CS} {h : Heap} (ok : OK c h) {p z u : Nat} (ha : At 0 h.chunks p z (.user u)) : u + 8 ≤ z ∧ p + z + 16 ≤ h.cap := by
  have g := (ok.inv.wf.good _ (at_mem ha)).2.2 u rfl
  have := need_fits u
  have hb := at_bound ha
  obtain ⟨t1, t2⟩ := ok.inv.wf.top _ ok.rep.size
  rw [ok.cap]
  simp only at g
  omega

theorem OK.chunksize {c : CS} {h : Heap} (ok : OK c h) {p z u : Nat} (ha : At 0 h.chunks p z (.user u)) : chunksize c.mem p = z := by
  obtain ⟨l, r, e, e2⟩ := ha
  have hy := ok.rep.lay
  have hs := WF.siz ok.inv.wf
  rw [e] at hy hs
  obtain ⟨-, hl⟩ := (lay_append l _ 0 1).1 hy
  rw [e2] at hl
  have h16 := (siz_cons.1 (siz_append.1 hs).2).1.1
  simp only at h16
  exact (head_flags hl.1 (by simp only; omega) (lastUse_lt (by omega) l) (inUse_lt _)).2.2.2

theorem copy_ne {m : Mem} {p q n x : Nat} (h : x < q + 16 ∨ q + 16 + n ≤ x) : copy m p q n x = m x := by
  unfold copy; rw [if_neg (by omega)]

theorem copy_at {m : Mem} {p q n k : Nat} (h : k < n) : copy m p q n (q + 16 + k) = m (p + 16 + k) := by
  unfold copy
  rw [if_pos (by omega), show q + 16 + k - (q + 16) = k by omega]

theorem realloc_full {c : CS} {h : Heap} (ok : OK c h) {p q : Nat} (hu : (p, q) ∈ users 0 h.chunks) (req : Nat) (os : Bool) :
    ∃ c' h' o, realloc c p req os = some (c', o) ∧ Dl.realloc h c.bins p req os = some ((h', c'.bins), o) ∧ OK c' h' ∧ h'.cap = h.cap ∧
      Eff h h' (some p) c.mem c'.mem ∧ (o = none → (os && decide (req < maxRequest)) = false → Eff h h' none c.mem c'.mem) ∧
      ∀ p', o = some p' → ∀ k, k < min q req → c'.mem (p' + 16 + k) = c.mem (p + 16 + k) := by
  obtain ⟨hR, bR, oR, eR, eR2, iR⟩ := realloc_ok ok.inv hu req os
  have hcapR := (realloc_spec ok.inv.wf hu eR2).2.1
  -- enough: an equality of results and the rest
  suffices key : ∃ c' h' o, realloc c p req os = some (c', o) ∧ Dl.realloc h c.bins p req os = some ((h', c'.bins), o) ∧ Rep c' h' ∧
      Eff h h' (some p) c.mem c'.mem ∧ (o = none → (os && decide (req < maxRequest)) = false → Eff h h' none c.mem c'.mem) ∧
      ∀ p', o = some p' → ∀ k, k < min q req → c'.mem (p' + 16 + k) = c.mem (p + 16 + k) by
    obtain ⟨c', h', o, k1, k2, k3, k4, k5, k6⟩ := key
    rw [k2] at eR
    injection eR with eR
    injection eR with e3 e4
    injection e3 with e5 e6
    subst e5; subst e6
    exact ⟨c', h', o, k1, k2, ⟨iR, k3, by rw [hcapR]; exact ok.big⟩, hcapR, k4, k5, k6⟩
  clear eR eR2 iR hcapR
  obtain ⟨l, s, r, hf⟩ := find_user ok.inv.wf.good hu
  obtain ⟨hc, hp⟩ := find_some hf
  rw [Nat.zero_add] at hp
  have hat : At 0 h.chunks p s (.user q) := ⟨l, r, hc, by rw [Nat.zero_add]; exact hp⟩
  have hroom := ok.room hat
  unfold realloc Dl.realloc
  by_cases hr : req < maxRequest
  · simp only [if_pos hr, hf]
    simp only [decide_eq_true hr, Bool.and_true]
    obtain ⟨t1, t2⟩ := tryRealloc_sim ok hc req
    rw [hp] at t1 t2
    rw [ok.rep.size]
    cases ht : Heap.tryRealloc l s (need req) req r (some c.topsize) with
    | some h' =>
      obtain ⟨c', k1, k2, k3, k4, k5⟩ := t1 h' ht
      rw [k1]
      refine ⟨c', h', some p, rfl, by rw [k3], k2, k4, (fun e => by cases e), ?_⟩
      intro p' e k hk
      injection e with e
      subst e
      have := need_fits req
      exact k5 _ (by omega) (by omega)
    | none =>
      rw [t2 ht]
      simp only
      obtain ⟨h1, e1, ok1, cap1, ef1, new1⟩ := malloc_full ok req
      have hm : malloc c req = ((malloc c req).1, (malloc c req).2) := rfl
      have hat1 : At 0 h1.chunks p s (.user q) := ef1.kept p s q hat (by simp)
      have hsame1 : ∀ k, k < q → (malloc c req).1.mem (p + 16 + k) = c.mem (p + 16 + k) := fun k hk => ef1.same p s q hat (by simp) _ (by omega) (by omega)
      rw [e1]
      generalize hx : (malloc c req).2 = o at *
      generalize hc2 : (malloc c req).1 = c2 at *
      rw [hm]
      cases o with
      | none =>
        simp only
        cases os with
        | false => exact ⟨c2, h1, none, rfl, rfl, ok1.rep, ef1.weaken, fun _ _ => ef1, fun p' e => by cases e⟩
        | true =>
          obtain ⟨c3, h3, f1, f2, ok3, cap3, ef3⟩ := free_full ok1 (at_users.2 ⟨s, hat1⟩)
          rw [f1, f2]
          exact ⟨c3, h3, none, rfl, rfl, ok3.rep, ef1.weaken.trans cap1 ef3, fun _ e => by simp at e, fun p' e => by cases e⟩
      | some p' =>
        simp only
        obtain ⟨⟨z', hat'⟩, hfresh⟩ := new1 p' rfl
        have hne : p' ≠ p := by rintro rfl; exact hfresh _ _ hat
        have hroom' := ok1.room hat'
        rw [ok1.chunksize hat1]
        generalize hn : min (s - 8) req = n
        have hcopy : ∀ x, x < p' + 16 ∨ p' + z' + 8 ≤ x → copy c2.mem p p' n x = c2.mem x := fun x hx => copy_ne (by omega)
        have ok2 : OK { c2 with mem := copy c2.mem p p' n } h1 := write_ok ok1 hat' hcopy
        obtain ⟨c3, h3, f1, f2, ok3, cap3, ef3⟩ := free_full ok2 (at_users.2 ⟨s, hat1⟩)
        simp only at f2 ef3
        rw [f1, f2]
        refine ⟨c3, h3, some p', rfl, rfl, ok3.rep, ?_, (fun e => by cases e), ?_⟩
        · refine ⟨?_, fun q' z u ha hq => ef3.kept q' z u (ef1.kept q' z u ha (by simp)) hq, ?_⟩
          · intro q' z u ha hq x h1' h2'
            have ha1 := ef1.kept q' z u ha (by simp)
            rw [ef3.same q' z u ha1 hq x h1' h2', ← ef1.same q' z u ha (by simp) x h1' h2']
            refine hcopy x ?_
            rcases at_apart (WF.siz ok1.inv.wf) hat' ha1 with e | e | e
            · exact absurd ha (by rw [← e]; exact hfresh _ _)
            · omega
            · omega
          · intro x hx
            rw [ef3.edge x (by rw [cap1]; exact hx), ← ef1.edge x hx]
            refine hcopy x ?_
            rw [cap1] at hroom'
            omega
        · intro p'' e k hk
          injection e with e
          subst e
          rw [ef3.same p' z' req hat' (by simpa using hne) _ (by omega) (by omega)]
          rw [copy_at (by omega), hsame1 k (by omega)]
  · simp only [if_neg hr]
    exact ⟨c, h, none, rfl, rfl, ok.rep, Eff.refl _ _ _, fun _ _ => Eff.refl _ _ _, fun p' e => by cases e⟩

end Verif.Tag
