import Verif.Dl.Free
/-!
# Every call keeps the bins right, and is a call of the model without bins
-/
namespace Verif.Dl
open Heap

/-- the chunks are well formed and the bins hold exactly the free ones -/
structure HInv (h : Heap) (b : Bins) : Prop where
  wf : WF h
  bins : BInv (fmap 0 h.chunks) b
  cap : h.cap < 2 ^ 64

theorem WF.pos {h : Heap} (w : WF h) : Pos h.chunks := fun c hc => (w.good c hc).2.1

theorem find_of_fmap : ∀ {cs : List Chunk} {o p s : Nat}, Pos cs → fmap o cs p = some s → ∃ l r, find p o cs = some (l, ⟨s, .free⟩, r) := by
  intro cs
  induction cs with
  | nil => intro o p s _ h; simp [fmap] at h
  | cons c cs ih =>
    intro o p s hg h
    have h0 := hg c (by simp)
    have hg' : Pos cs := fun c hc => hg c (List.mem_cons_of_mem _ hc)
    obtain ⟨n, u⟩ := c
    have later : fmap (o + n) cs p = some s → ∃ l r, find p o (⟨n, u⟩ :: cs) = some (l, ⟨s, .free⟩, r) := by
      intro h
      have hb := fmap_bound h
      simp only at h0
      obtain ⟨l, r, hf⟩ := ih hg' h
      refine ⟨⟨n, u⟩ :: l, r, ?_⟩
      simp only [find]
      rw [if_neg (by omega), hf]
      rfl
    cases u with
    | free =>
      simp only [fmap] at h
      split at h
      · rename_i hp
        injection h with h
        subst h
        exact ⟨[], cs, by simp [find, hp]⟩
      · exact later h
    | user q => exact later h
    | dead => exact later h

theorem HInv.lt {h : Heap} {b : Bins} (i : HInv h b) : ∀ p s, fmap 0 h.chunks p = some s → s < 2 ^ 64 := by
  intro p s hp
  have := fmap_bound hp
  have := i.cap
  unfold Heap.cap at this
  omega

theorem carve_fmap {l r : List Chunk} {s nb req : Nat} (hl : Pos l) (hs : 0 < s) (h0 : 0 < nb) (hle : nb ≤ s) :
    carveF (fmap 0 (l ++ ⟨s, .free⟩ :: r)) (total l) s nb = fmap 0 (l ++ carve s nb req ++ r) := by
  unfold carveF carve
  rw [fmap_take (q := req) hl hs]
  split
  · simp
  · rename_i hm
    unfold minChunk at hm
    have hl1 : Pos (l ++ [⟨nb, .user req⟩]) := by
      rw [pos_append]
      refine ⟨hl, fun c hc => ?_⟩
      simp at hc; subst hc; exact h0
    have e1 : l ++ ⟨nb, .user req⟩ :: ⟨s - nb, .user req⟩ :: r = (l ++ [⟨nb, .user req⟩]) ++ ⟨s - nb, .user req⟩ :: r := by simp
    have e2 : total l + nb = total (l ++ [⟨nb, .user req⟩]) := by rw [total_append]; rfl
    rw [show s = nb + (s - nb) by omega, ← fmap_join (q := req) (q' := req), e1, e2, Nat.add_sub_cancel_left, fmap_free hl1]
    simp

theorem malloc_ok {h : Heap} {b : Bins} (i : HInv h b) (req : Nat) : ∃ h' b' o, malloc h b req = some ((h', b'), o) ∧
    Heap.malloc h req (place b h.top req).1 = some (h', o) ∧ HInv h' b' := by
  have sp := place_spec i.bins fmap_apart i.lt h.top req
  unfold malloc
  simp only
  generalize hx : place b h.top req = x at *
  obtain ⟨ch, b'⟩ := x
  have fin : ∀ h' o, Heap.malloc h req ch = some (h', o) → BInv (fmap 0 h'.chunks) b' → ∃ h' b'' o,
      (Heap.malloc h req ch).map (fun y => ((y.1, b'), y.2)) = some ((h', b''), o) ∧ Heap.malloc h req ch = some (h', o) ∧ HInv h' b'' := by
    intro h' o e hb
    obtain ⟨w', c', -⟩ := malloc_spec i.wf e
    exact ⟨h', b', o, by rw [e]; rfl, e, w', hb, by rw [c']; exact i.cap⟩
  rcases sp with ⟨p, s, h1, h2, h3, h4, h5, -⟩ | ⟨⟨h1, h2, t, h3, h4⟩ | ⟨h1, -⟩, h5, -⟩
  · simp only at h1 h5
    subst h1
    obtain ⟨l, r, hf⟩ := find_of_fmap (WF.pos i.wf) h2
    obtain ⟨hc, hp⟩ := find_some hf
    have hg := WF.pos i.wf
    rw [hc] at hg
    obtain ⟨g1, g2⟩ := pos_append.1 hg
    have hn := need_ge req
    refine fin ⟨l ++ carve s (need req) req ++ r, h.top⟩ (some p) (by simp only [Heap.malloc, if_pos h4, hf, if_pos h3]) ?_
    rw [hc, show p = total l by omega, carve_fmap (req := req) g1 (g2 ⟨s, .free⟩ (by simp)) (by omega) h3] at h5
    exact h5
  · simp only at h1 h5
    subst h1; subst h5
    refine fin ⟨h.chunks ++ [⟨need req, .user req⟩], some (t - need req)⟩ (some (total h.chunks))
      (by simp only [Heap.malloc, if_pos h2, h3, if_pos h4]) ?_
    rw [fmap_last]; exact i.bins
  · simp only at h1 h5
    subst h1; subst h5
    exact fin h none rfl i.bins

theorem free_ok {h : Heap} {b : Bins} (i : HInv h b) {p q : Nat} (hu : (p, q) ∈ users 0 h.chunks) : ∃ h' b', free h b p = some (h', b') ∧
    Heap.free h p = some h' ∧ HInv h' b' := by
  obtain ⟨h', e, w', c', -⟩ := free_spec i.wf hu
  obtain ⟨l, s, r, hf⟩ := find_user i.wf.good hu
  obtain ⟨hc, hp⟩ := find_some hf
  have hg := i.wf.good
  rw [hc] at hg
  obtain ⟨gl, gc, gr⟩ := forall_split hg
  have hp2 := WF.pos i.wf
  rw [hc] at hp2
  obtain ⟨pl, pr⟩ := pos_append.1 hp2
  have hn := gc.2.2 q rfl
  have hn2 := need_ge q
  simp only at hn
  have hd := dispose_spec (t := h.top) (by rw [← hc]; exact i.bins) pl (show Sz s from ⟨gc.1, by omega⟩) (fun c hc => pr c (List.mem_cons_of_mem _ hc))
  refine ⟨h', disposeBins b l p s r h.top, ?_, e, w', ?_, by rw [c']; exact i.cap⟩
  · simp only [Heap.free, hf, Option.some.injEq] at e
    simp only [free, hf, e]
  · simp only [Heap.free, hf, Option.some.injEq] at e
    rw [← e, show p = total l by omega]
    exact hd

/-- a chunk in use is cut in two -/
theorem fmap_cut {l r : List Chunk} {s nb q req : Nat} (h : nb ≤ s) :
    fmap 0 (l ++ ⟨s, .user q⟩ :: r) = fmap 0 ((l ++ [⟨nb, .user req⟩]) ++ ⟨s - nb, .user req⟩ :: r) := by
  rw [show (l ++ [⟨nb, .user req⟩]) ++ ⟨s - nb, .user req⟩ :: r = l ++ ⟨nb, .user req⟩ :: ⟨s - nb, .user req⟩ :: r by simp, fmap_join (q'' := q),
    show nb + (s - nb) = s by omega]

theorem pos_snoc {l : List Chunk} {nb req : Nat} (hl : Pos l) (h0 : 0 < nb) : Pos (l ++ [⟨nb, .user req⟩]) := by
  rw [pos_append]
  refine ⟨hl, fun c hc => ?_⟩
  simp at hc; subst hc; exact h0

theorem total_snoc {l : List Chunk} {nb req : Nat} : total (l ++ [⟨nb, .user req⟩]) = total l + nb := by rw [total_append]; rfl

theorem prevFree_snoc {l : List Chunk} {nb req : Nat} : prevFree (l ++ [⟨nb, .user req⟩]) = none := by
  induction l with
  | nil => rfl
  | cons c l ih =>
    cases l with
    | nil => obtain ⟨n, u⟩ := c; cases u <;> rfl
    | cons d l =>
      have e : prevFree (c :: d :: (l ++ [⟨nb, .user req⟩])) = prevFree (d :: (l ++ [⟨nb, .user req⟩])) := by
        obtain ⟨n, u⟩ := c
        cases u <;> rfl
      exact e.trans ih

theorem realloc_bins {b : Bins} {l r : List Chunk} {s q req : Nat} {t : Option Nat} {h' : Heap} (w : WF ⟨l ++ ⟨s, .user q⟩ :: r, t⟩)
    (i : BInv (fmap 0 (l ++ ⟨s, .user q⟩ :: r)) b) (e : tryRealloc l s (need req) req r t = some h') :
    BInv (fmap 0 h'.chunks) (reallocBins b l (total l) s (need req) req r t) := by
  obtain ⟨gl, gc, gr⟩ := forall_split w.good
  obtain ⟨m1, m2, m3, m4, m5⟩ := merged_split w.merged
  have hnr := need_ge req
  have hn16 := need_dvd req
  have pl : Pos l := fun c hc => (gl c hc).2.1
  have pr : Pos r := fun c hc => (gr c hc).2.1
  have h16 : 16 ∣ s := gc.1
  have hs0 : need q ≤ s := gc.2.2 q rfl
  have hq32 := need_ge q
  unfold tryRealloc at e
  unfold reallocBins
  by_cases hs : need req ≤ s
  · rw [if_pos hs] at e ⊢
    injection e with e
    subst e
    unfold shrink
    by_cases hm : s - need req < minChunk
    · rw [if_pos hm, if_pos hm]
      rwa [fmap_relabel (q' := req)] at i
    · rw [if_neg hm, if_neg hm]
      rw [fmap_cut (req := req) hs] at i
      have := dispose_spec (t := t) i (pos_snoc pl (by omega)) (show Sz (s - need req) from ⟨by omega, by unfold minChunk at hm; omega⟩) pr
      rwa [total_snoc] at this
  · rw [if_neg hs] at e ⊢
    cases r with
    | nil =>
      cases t with
      | none => cases e
      | some t =>
        simp only at e
        split at e
        · injection e with e
          subst e
          simp only
          rw [fmap_last] at i ⊢
          exact i
        · cases e
    | cons d r =>
      obtain ⟨n, u⟩ := d
      cases u with
      | user q' => cases e
      | dead => cases e
      | free =>
        simp only at e ⊢
        by_cases hfit : need req ≤ s + n
        · rw [if_pos hfit] at e
          injection e with e
          subst e
          simp only
          have hn : 0 < n := pr ⟨n, .free⟩ (by simp)
          have pr' : Pos r := fun c hc => pr c (List.mem_cons_of_mem _ hc)
          have e1 : l ++ ⟨s, .user q⟩ :: ⟨n, .free⟩ :: r = (l ++ [⟨s, .user q⟩]) ++ ⟨n, .free⟩ :: r := by simp
          have hl1 : Pos (l ++ [⟨s, .user q⟩]) := pos_snoc pl (by omega)
          have hFn : fmap 0 (l ++ ⟨s, .user q⟩ :: ⟨n, .free⟩ :: r) (total l + s) = some n := by
            rw [e1, ← total_snoc (req := q)]; exact fmap_at_free hl1
          have hszn := i.size _ _ hFn
          have htake : Function.update (fmap 0 (l ++ ⟨s, .user q⟩ :: ⟨n, .free⟩ :: r)) (total l + s) none = fmap 0 (l ++ ⟨s + n, .user req⟩ :: r) := by
            rw [e1, ← total_snoc (req := q), fmap_take (q := q) hl1 hn]
            rw [show (l ++ [⟨s, .user q⟩]) ++ ⟨n, .user q⟩ :: r = l ++ ⟨s, .user q⟩ :: ⟨n, .user q⟩ :: r by simp]
            exact fmap_join
          have hsplit : ∀ (hm : ¬s + n - need req < minChunk), Function.update (fmap 0 (l ++ ⟨s + n, .user req⟩ :: r)) (total l + need req)
              (some (s + n - need req)) = fmap 0 (l ++ carve (s + n) (need req) req ++ r) := by
            intro hm
            rw [fmap_cut (req := req) hfit, ← total_snoc (req := req), fmap_free (pos_snoc pl (by omega))]
            unfold carve
            rw [if_neg hm]
            simp
          by_cases hd : b.dv = some (total l + s)
          · rw [if_pos hd]
            have hds : b.dvsize = n := by
              have := i.dv _ hd
              rw [hFn] at this
              injection this with this
              exact this.symm
            rw [hds]
            by_cases hm : minChunk ≤ s + n - need req
            · rw [if_pos hm]
              unfold minChunk at hm
              have := i.moveDv hd (.inr (fmap_apart _ _ hFn (total l + need req) (by omega) (by omega))) (show 16 ∣ s + n - need req by omega) hm
              rw [htake, hsplit (by unfold minChunk; omega)] at this
              exact this
            · rw [if_neg hm]
              have := i.dropDv hd
              rw [htake] at this
              unfold carve
              rw [if_pos (by omega)]
              simpa [Bins.dropDv] using this
          · rw [if_neg hd]
            have hu := i.unlink hFn hd
            rw [htake] at hu
            by_cases hm : s + n - need req < minChunk
            · rw [if_pos hm]
              unfold carve
              rw [if_pos hm]
              simpa using hu
            · rw [if_neg hm]
              rw [fmap_cut (req := req) hfit] at hu
              have hmm := hm
              unfold minChunk at hmm
              have k := dispose_spec (t := t) hu (pos_snoc pl (by omega)) (show Sz (s + n - need req) from ⟨by omega, by omega⟩) pr'
              rw [total_snoc] at k
              have hdis : (dispose (l ++ [⟨need req, .user req⟩]) (s + n - need req) r t).chunks = l ++ carve (s + n) (need req) req ++ r := by
                unfold dispose carve
                rw [prevFree_none prevFree_snoc, if_neg hm]
                cases r with
                | nil =>
                  cases t with
                  | none => simp [fwd]
                  | some t => exact absurd rfl (m5 rfl ⟨n, .free⟩ (by simp))
                | cons d r =>
                  obtain ⟨n', u⟩ := d
                  rw [List.isChain_cons] at m3
                  cases u with
                  | free => exact absurd ⟨rfl, rfl⟩ (m3.1 ⟨n', .free⟩ (by simp))
                  | user q' => simp [fwd]
                  | dead => simp [fwd]
              rwa [hdis] at k
        · rw [if_neg hfit] at e; cases e

theorem realloc_ok {h : Heap} {b : Bins} (i : HInv h b) {p q : Nat} (hu : (p, q) ∈ users 0 h.chunks) (req : Nat) (os : Bool) :
    ∃ h' b' o, realloc h b p req os = some ((h', b'), o) ∧ Heap.realloc h p req (place b h.top req).1 os = some (h', o) ∧ HInv h' b' := by
  unfold realloc Heap.realloc
  by_cases hr : req < maxRequest
  · rw [if_pos hr, if_pos hr]
    obtain ⟨l, s, r, hf⟩ := find_user i.wf.good hu
    obtain ⟨hc, hp⟩ := find_some hf
    simp only [hf]
    have hh : h = ⟨l ++ ⟨s, .user q⟩ :: r, h.top⟩ := by rw [← hc]
    cases ht : tryRealloc l s (need req) req r h.top with
    | some h1 =>
      simp only
      obtain ⟨w1, c1, -⟩ := tryRealloc_spec (hh ▸ i.wf) hp ht
      refine ⟨h1, _, some p, rfl, rfl, w1, ?_, ?_⟩
      · rw [show p = total l by omega]
        exact realloc_bins (hh ▸ i.wf) (by rw [← hc]; exact i.bins) ht
      · rw [c1, ← hh]; exact i.cap
    | none =>
      simp only
      obtain ⟨h1, b1, o, e1, e2, i1⟩ := malloc_ok i req
      rw [e1, e2]
      obtain ⟨-, -, u1⟩ := malloc_spec i.wf e2
      have hu1 : (p, q) ∈ users 0 h1.chunks := by
        rw [u1.mem_iff]
        cases o with
        | none => exact hu
        | some x => exact List.mem_cons_of_mem _ hu
      obtain ⟨h2, b2, f1, f2, i2⟩ := free_ok i1 hu1
      cases o with
      | some x =>
        simp only [f1, f2, Option.map_some]
        exact ⟨h2, b2, some x, rfl, rfl, i2⟩
      | none =>
        cases os with
        | true =>
          simp only [if_true, f1, f2, Option.map_some]
          exact ⟨h2, b2, none, rfl, rfl, i2⟩
        | false => exact ⟨h1, b1, none, rfl, rfl, i1⟩
  · rw [if_neg hr, if_neg hr]
    exact ⟨h, b, none, rfl, rfl, i⟩

theorem memalign_ok {a0 : Nat} {h : Heap} {b : Bins} {al : Nat} (ha : 16 ∣ a0) (h16 : 16 ∣ al) (h32 : 32 ≤ al) (i : HInv h b) (req : Nat) :
    ∃ h' b' o, memalign a0 h b al req = some ((h', b'), o) ∧
      Heap.memalign a0 h al req (place b h.top (need req + al + minChunk - 8)).1 = some (h', o) ∧ HInv h' b' := by
  unfold memalign Heap.memalign
  by_cases hr : req < maxRequest - al
  · rw [if_pos hr, if_pos hr]
    obtain ⟨h1, b1, o, e1, e2, i1⟩ := malloc_ok i (need req + al + minChunk - 8)
    rw [e1, e2]
    cases o with
    | none => exact ⟨h1, b1, none, rfl, rfl, i1⟩
    | some p =>
      simp only
      obtain ⟨w1, c1, u1⟩ := malloc_spec i.wf e2
      simp only [added] at u1
      have hu : (p, need req + al + minChunk - 8) ∈ users 0 h1.chunks := u1.mem_iff.2 (by simp)
      obtain ⟨l, s, r, hf⟩ := find_user w1.good hu
      obtain ⟨hc, hp⟩ := find_some hf
      have hh : h1 = ⟨l ++ ⟨s, .user (need req + al + minChunk - 8)⟩ :: r, h1.top⟩ := by rw [← hc]
      simp only [hf]
      have hg := w1.good
      rw [hc] at hg
      obtain ⟨gl, gc, gr⟩ := forall_split hg
      have hp16 : 16 ∣ p := by
        rw [← hp, Nat.zero_add]
        have : ∀ l : List Chunk, (∀ c ∈ l, Good c) → 16 ∣ total l := by
          intro l
          induction l with
          | nil => simp [total]
          | cons c l ih =>
            intro hl
            have h1 := (hl c (by simp)).1
            have h2 := ih (fun c hc => hl c (by simp [hc]))
            simp only [total]; omega
        exact this l gl
      obtain ⟨k1, k2, k3, k4⟩ := lead_ok h16 h32 (show 16 ∣ a0 + p by omega)
      generalize lead al (a0 + p) = d at *
      have hsize : need req + al + 32 ≤ s := by
        have h1 := gc.2.2 _ rfl
        simp only [minChunk] at h1
        have h2 := need_dvd req
        have h3 := need_ge req
        have h4 : ∀ x, 23 ≤ x → need x = (x + 23) / 16 * 16 := fun x hx => by unfold need; rw [if_neg (by omega)]
        rw [h4 _ (by omega)] at h1
        omega
      obtain ⟨w2, c2, u2⟩ := giveLead_spec (req := req) (d := d) (hh ▸ w1) hp k2 (by omega)
      have pl : Pos l := fun c hc => (gl c hc).2.1
      have pr : Pos r := fun c hc => (gr c hc).2.1
      have hb2 : BInv (fmap 0 (giveLead l s d req r h1.top).chunks) (leadBins b1 l p s d req r h1.top) := by
        have ib := i1.bins
        rw [hc] at ib
        unfold giveLead leadBins
        by_cases hd0 : d = 0
        · rw [if_pos hd0, if_pos hd0]
          rwa [fmap_relabel (q' := req)] at ib
        · rw [if_neg hd0, if_neg hd0]
          have hcut : fmap 0 (l ++ ⟨s, .user (need req + al + minChunk - 8)⟩ :: r) = fmap 0 (l ++ ⟨d, .user req⟩ :: ⟨s - d, .user req⟩ :: r) := by
            rw [fmap_cut (nb := d) (req := req) (by omega)]
            simp
          rw [hcut] at ib
          rw [show p = total l by omega]
          refine dispose_spec ib pl ⟨k2, by omega⟩ ?_
          intro c hc'
          rcases List.mem_cons.1 hc' with rfl | hc'
          · have := need_ge req
            show 0 < s - d
            omega
          · exact pr c hc'
      generalize hgl : giveLead l s d req r h1.top = h2 at *
      generalize leadBins b1 l p s d req r h1.top = b2 at *
      have hu2 : (p + d, req) ∈ users 0 h2.chunks := u2.mem_iff.2 (by simp)
      obtain ⟨l2, s2, r2, hf2⟩ := find_user w2.good hu2
      obtain ⟨hc2, hp2⟩ := find_some hf2
      simp only [hf2]
      have hh2 : h2 = ⟨l2 ++ ⟨s2, .user req⟩ :: r2, h2.top⟩ := by rw [← hc2]
      have hg2 := w2.good
      rw [hc2] at hg2
      obtain ⟨gl2, gc2, gr2⟩ := forall_split hg2
      have hn2 := gc2.2.2 _ rfl
      simp only at hn2
      have key := shrink_spec (k := 1) (nb := need req) (req := req) (hh2 ▸ w2) hp2 (need_dvd _) (le_refl _) hn2
      have cond : trimEnd l2 s2 (need req) req r2 h2.top = if s2 - need req < minChunk + 1 then (⟨l2 ++ ⟨s2, .user req⟩ :: r2, h2.top⟩ : Heap)
          else dispose (l2 ++ [⟨need req, .user req⟩]) (s2 - need req) r2 h2.top := by
        unfold trimEnd
        by_cases hb : need req + minChunk < s2
        · rw [if_pos hb, if_neg (by omega)]
        · rw [if_neg hb, if_pos (by omega)]
      refine ⟨_, _, some (p + d), rfl, rfl, ?_, ?_, ?_⟩
      · rw [cond]; exact key.1
      · have pl2 : Pos l2 := fun c hc => (gl2 c hc).2.1
        have pr2 : Pos r2 := fun c hc => (gr2 c hc).2.1
        have hn16 := need_dvd req
        have hn32 := need_ge req
        have hs16 : 16 ∣ s2 := gc2.1
        rw [hc2] at hb2
        unfold trimEnd trimBins
        by_cases hb : need req + minChunk < s2
        · rw [if_pos hb, if_pos hb]
          unfold minChunk at hb
          rw [fmap_cut (req := req) (show need req ≤ s2 by omega)] at hb2
          have k := dispose_spec (t := h2.top) hb2 (pos_snoc pl2 (by omega)) (show Sz (s2 - need req) from ⟨by omega, by omega⟩) pr2
          rw [total_snoc, show total l2 = p + d by omega] at k
          exact k
        · rw [if_neg hb, if_neg hb]
          exact hb2
      · rw [cond, key.2.1, ← hh2, c2, ← hh]
        exact i1.cap
  · rw [if_neg hr, if_neg hr]
    exact ⟨h, b, none, rfl, rfl, i⟩

end Verif.Dl
