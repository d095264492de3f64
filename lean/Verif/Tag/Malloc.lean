import Verif.Tag.Sim
/-!
# Taking chunks, on memory
-/
namespace Verif.Tag
open Heap Dl

/-! ## The search -/

/-- as a choice of the model on lists -/
def Pick.choice : Pick → Choice
  | .chunk p _ => .chunk p
  | .top => .top
  | .outside => .outside false

theorem pickRest_place (b : Bins) (t nb : Nat) : rest b (some t) nb = ((pickRest b t nb).1.choice, (pickRest b t nb).2) := by
  unfold rest pickRest
  split
  · cases b.dv with
    | none => rfl
    | some p => simp only; split <;> rfl
  · simp only; split <;> rfl

theorem pick_place (b : Bins) (t req : Nat) : place b (some t) req = ((pick b t req).1.choice, (pick b t req).2) := by
  unfold place pick
  simp only
  split
  · split
    · split <;> (rename_i e; rw [e]; rfl)
    · split
      · split
        · split <;> (rename_i e; rw [e]; rfl)
        · split
          · split <;> (rename_i e; rw [e]; rfl)
          · exact pickRest_place _ _ _
      · exact pickRest_place _ _ _
  · split
    · rfl
    · split
      · split
        · rename_i e; rw [e]; rfl
        · rename_i e; rw [e]; exact pickRest_place _ _ _
      · exact pickRest_place _ _ _

theorem pickRest_size {F : Nat → Option Nat} {b : Bins} (i : BInv F b) {t nb p s : Nat} (h : (pickRest b t nb).1 = .chunk p s) : F p = some s := by
  unfold pickRest at h
  split at h
  · split at h
    · rename_i d hd
      have : (Pick.chunk d b.dvsize) = .chunk p s := by
        split at h <;> exact h
      injection this with e1 e2
      subst e1; subst e2
      exact i.dv _ hd
    · cases h
  · split at h <;> cases h

/-- the size that the code assumes is the size of the chunk -/
theorem pick_size {F : Nat → Option Nat} {b : Bins} (i : BInv F b) (h64 : ∀ p s, F p = some s → s < 2 ^ 64) {t req p s : Nat} (h : (pick b t req).1 = .chunk p s) :
    F p = some s := by
  have hsm : ∀ {j p' : Nat} {tl : List Nat}, b.small j = p' :: tl → F p' = some (8 * j) := fun {j p' tl} e => ((i.small_mem j p').1 (by rw [e]; simp)).1
  have h32 := need_ge req
  unfold pick at h
  simp only at h
  split at h
  · rename_i hreq
    have h240 := need_small hreq
    split at h
    · split at h
      · rename_i e
        injection h with e1 e2
        subst e1; subst e2
        exact hsm e
      · cases h
    · split at h
      · split at h
        · split at h
          · rename_i e
            injection h with e1 e2
            subst e1; subst e2
            exact hsm e
          · cases h
        · split at h
          · rename_i hne
            obtain ⟨p', s', e, hin, -⟩ := tsmall_ok i h64 (nb := need req) (by omega) hne
            rw [e] at h
            injection h with e1 e2
            subst e1; subst e2
            exact hin.1
          · exact pickRest_size i h
      · exact pickRest_size i h
  · split at h
    · cases h
    · rename_i hreq hmax
      split at h
      · cases ht : tlarge b (need req) with
        | none => rw [ht] at h; exact pickRest_size i h
        | some w =>
          obtain ⟨p', s'⟩ := w
          rw [ht] at h
          injection h with e1 e2
          subst e1; subst e2
          exact (tlarge_ok i h64 (by omega) (need_lt (by omega)) ht).1.1
      · exact pickRest_size i h

/-! ## Memory -/

theorem setInusePinuse_ne {m : Mem} {p s x : Nat} (h : x < p + 8 ∨ p + 16 ≤ x) (h' : x < p + s + 8 ∨ p + s + 16 ≤ x) : setInusePinuse m p s x = m x := by
  unfold setInusePinuse
  rw [setPinuse_ne h', st_of_ne (by omega)]

theorem setSizePinuse_ne {m : Mem} {p s x : Nat} (h : x < p + 8 ∨ p + 16 ≤ x) : setSizePinuse m p s x = m x := st_of_ne (by omega)

/-- a chunk in use in front of others -/
theorem lay_user {m : Mem} {t o n b q : Nat} {r : List Chunk} (h1 : ld m (o + 8) = n + b + 2) (h3 : Lay m t (o + n) 1 r) :
    Lay m t o b (⟨n, .user q⟩ :: r) := ⟨by simp [inUse, h1], (fun h => by cases h), h3⟩

theorem take_lay {m : Mem} {t s nb req : Nat} {l r : List Chunk} (hl : Siz l) (hr : Siz r) (hs : 16 ∣ s) (hn : 16 ∣ nb) (h0 : 0 < nb) (hle : nb ≤ s) (ht : 16 ∣ t)
    (h64 : total l + s + total r + t + 8 < 2 ^ 64) (hu : lastUse 1 l = 1) (hy : Lay m t 0 1 (l ++ ⟨s, .free⟩ :: r)) :
    Lay (takeMem m (total l) s nb) t 0 1 (l ++ carve s nb req ++ r) ∧ ∀ x, x < total l + 8 ∨ total l + s + 16 ≤ x → takeMem m (total l) s nb x = m x := by
  obtain ⟨hp, hlay⟩ := (lay_append l _ 0 1).1 hy
  rw [Nat.zero_add] at hlay
  have hr0 : Lay m t (total l + s) 0 r := hlay.2.2
  unfold takeMem carve
  by_cases hm : s - nb < minChunk
  · rw [if_pos hm, if_pos hm]
    have hfr : ∀ x, x < total l + 8 ∨ total l + s + 16 ≤ x → setInusePinuse m (total l) s x = m x := fun x hx => setInusePinuse_ne (by omega) (by omega)
    refine ⟨?_, hfr⟩
    rw [List.append_assoc]
    refine lay_build hl hp (fun x hx => hfr x (.inl hx)) ?_
    rw [hu]
    unfold setInusePinuse
    refine lay_user ?_ (lay_setPinuse (cs := r) ht hr (b := 0) (by omega) (by omega) (lay_congr hr (fun x hx => st_of_ne (by omega)) hr0))
    unfold setPinuse
    rw [ld_st_ne (by omega), ld_st_same, or_three (by omega)]
    rw [or_three (by omega)]; omega
  · rw [if_neg hm, if_neg hm]
    unfold minChunk at hm
    have hfr : ∀ x, x < total l + 8 ∨ total l + s + 16 ≤ x → setFree (setSizePinuse m (total l) nb) (total l + nb) (s - nb) x = m x := fun x hx => by
      rw [setFree_ne (by omega) (by omega), setSizePinuse_ne (by omega)]
    refine ⟨?_, hfr⟩
    rw [List.append_assoc]
    refine lay_build hl hp (fun x hx => hfr x (.inl hx)) ?_
    rw [hu]
    have e : total l + nb + (s - nb) = total l + s := by omega
    refine lay_user ?_ (lay_free (setFree_head (by omega) (by omega) (by omega)) (setFree_foot (by omega)) ?_)
    · unfold setFree setFoot
      rw [ld_st_ne (by omega), ld_st_ne (by omega)]
      unfold setSizePinuse
      rw [ld_st_same, or_three (by omega)]
      rw [or_three (by omega)]; omega
    · rw [e]
      exact lay_congr hr (fun x hx => by rw [setFree_ne (by omega) (by omega), setSizePinuse_ne (by omega)]) hr0

/-! ## Data of the user -/

/-- memory `m'` has the same bytes as `m` in the payload (with the `prev_foot` behind it) of every chunk in use except the one at `p` -/
def Same (cs : List Chunk) (p : Option Nat) (m m' : Mem) : Prop :=
  ∀ q z u, At 0 cs q z (.user u) → some q ≠ p → ∀ x, q + 16 ≤ x → x < q + z + 8 → m' x = m x

/-- every chunk in use except the one at `p` is still there -/
def Kept (cs cs' : List Chunk) (p : Option Nat) : Prop := ∀ q z u, At 0 cs q z (.user u) → some q ≠ p → At 0 cs' q z (.user u)

/-- what a call may do besides to the chunk at `p`: nothing to the other chunks in use, nothing outside the heap -/
structure Eff (h h' : Heap) (p : Option Nat) (m m' : Mem) : Prop where
  same : Same h.chunks p m m'
  kept : Kept h.chunks h'.chunks p
  edge : ∀ x, x < 8 ∨ h.cap ≤ x → m' x = m x

theorem Eff.refl (h : Heap) (p : Option Nat) (m : Mem) : Eff h h p m m := ⟨fun _ _ _ _ _ _ _ _ => rfl, fun _ _ _ ha _ => ha, fun _ _ => rfl⟩

theorem Eff.trans {h h1 h2 : Heap} {p : Option Nat} {m m1 m2 : Mem} (hc : h1.cap = h.cap) (e1 : Eff h h1 p m m1) (e2 : Eff h1 h2 p m1 m2) : Eff h h2 p m m2 where
  same q z u ha hq x h1 h2 := by rw [e2.same q z u (e1.kept q z u ha hq) hq x h1 h2, e1.same q z u ha hq x h1 h2]
  kept q z u ha hq := e2.kept q z u (e1.kept q z u ha hq) hq
  edge x hx := by rw [e2.edge x (by rw [hc]; exact hx), e1.edge x hx]

theorem Eff.weaken {h h' : Heap} {p : Option Nat} {m m' : Mem} (e : Eff h h' none m m') : Eff h h' p m m' where
  same q z u ha _ := e.same q z u ha (by simp)
  kept q z u ha _ := e.kept q z u ha (by simp)
  edge := e.edge

/-- the memory and the bins describe the heap `h` -/
structure OK (c : CS) (h : Heap) : Prop where
  inv : HInv h c.bins
  rep : Rep c h
  big : h.cap + 8 < 2 ^ 64

theorem OK.cap {c : CS} {h : Heap} (k : OK c h) : h.cap = total h.chunks + c.topsize := by
  unfold Heap.cap; rw [k.rep.size]; rfl

theorem same_of_region {cs : List Chunk} {p : Option Nat} {m m' : Mem} {a e : Nat} (h : ∀ x, x < a + 8 ∨ e + 16 ≤ x → m' x = m x)
    (hd : ∀ q z u, At 0 cs q z (.user u) → some q ≠ p → q + z ≤ a ∨ e ≤ q) : Same cs p m m' := by
  intro q z u ha hq x h1 h2
  have := hd q z u ha hq
  exact h x (by omega)

theorem at_mid {l r : List Chunk} {c : Chunk} {q z : Nat} {u : Use} (h : At 0 (l ++ c :: r) q z u) :
    At 0 l q z u ∨ (q = total l ∧ c = ⟨z, u⟩) ∨ At (total l + c.size) r q z u := by
  rcases at_append.1 h with h | h
  · exact .inl h
  · rw [Nat.zero_add] at h
    exact .inr (at_cons.1 h)

theorem at_left {l r : List Chunk} {q z : Nat} {u : Use} (h : At 0 l q z u) : At 0 (l ++ r) q z u := at_append.2 (.inl h)
theorem at_right {l r : List Chunk} {q z : Nat} {u : Use} (h : At (total l) r q z u) : At 0 (l ++ r) q z u :=
  at_append.2 (.inr (by rw [Nat.zero_add]; exact h))

/-! ## `mspace_malloc` -/

theorem last_of_free {l r : List Chunk} {s : Nat} (h : (l ++ ⟨s, .free⟩ :: r).IsChain NotBoth) : lastUse 1 l = 1 :=
  chain_lastUse (n := s) (by
    rw [isChain_mid] at h ⊢
    exact ⟨h.1, List.isChain_nil, h.2.2.1, by simp⟩)

theorem last_of_top {l : List Chunk} (h : ∀ c ∈ l.getLast?, c.use ≠ .free) : lastUse 1 l = 1 := by
  cases hl : l.getLast? with
  | none => rw [List.getLast?_eq_none_iff.1 hl]; rfl
  | some d =>
    obtain ⟨ys, rfl⟩ := List.getLast?_eq_some_iff.1 hl
    rw [lastUse_snoc]
    have := h d (by simp)
    obtain ⟨k, u⟩ := d
    cases u with
    | free => exact absurd rfl this
    | user q => rfl
    | dead => rfl

theorem malloc_sim {c : CS} {h : Heap} (ok : OK c h) (req : Nat) :
    ∃ h', Dl.malloc h c.bins req = some ((h', (malloc c req).1.bins), (malloc c req).2) ∧ Rep (malloc c req).1 h' ∧
      Eff h h' none c.mem (malloc c req).1.mem ∧
      ∀ p, (malloc c req).2 = some p → (∃ z, At 0 h'.chunks p z (.user req)) ∧ ∀ z u, ¬At 0 h.chunks p z (.user u) := by
  have i := ok.inv
  have hr := ok.rep
  have h64 := ok.big
  rw [ok.cap] at h64
  have hcap := ok.cap
  have h32 := need_ge req
  have h16 := need_dvd req
  have sp := place_spec i.bins fmap_apart i.lt h.top req
  have hpp := pick_place c.bins c.topsize req
  have hps := fun p s => pick_size i.bins i.lt (t := c.topsize) (req := req) (p := p) (s := s)
  have ht := (i.wf.top _ hr.size).1
  unfold Dl.malloc
  rw [hr.size] at sp ⊢
  simp only
  rw [hpp] at sp ⊢
  unfold malloc
  generalize hx : pick c.bins c.topsize req = x at *
  obtain ⟨pk, b'⟩ := x
  cases pk with
  | chunk p s =>
    simp only [Pick.choice] at sp ⊢
    have hF := hps p s rfl
    obtain ⟨l, r, hf⟩ := find_of_fmap (WF.pos i.wf) hF
    have hneed : need req ≤ s ∧ req < maxRequest := by
      rcases sp with ⟨p', s', e, hF', h1, h2, -⟩ | ⟨⟨e, -⟩ | ⟨e, -⟩, -⟩
      · injection e with e
        subst e
        rw [hF] at hF'
        injection hF' with e
        subst e
        exact ⟨h1, h2⟩
      · cases e
      · cases e
    obtain ⟨he, hp⟩ := find_some hf
    rw [Nat.zero_add] at hp
    simp only [Heap.malloc, if_pos hneed.2, hf, if_pos hneed.1, Option.map_some]
    have hsz := WF.siz i.wf
    rw [he] at hsz
    obtain ⟨s1, s2⟩ := siz_append.1 hsz
    obtain ⟨⟨s3, s4⟩, s5⟩ := siz_cons.1 s2
    simp only at s3 s4
    have hch := i.wf.merged.1
    rw [he] at hch
    have hy := hr.lay
    rw [he] at hy
    have htt : total h.chunks = total l + s + total r := by rw [he, total_append]; simp only [total]; omega
    obtain ⟨k1, k2⟩ := take_lay (req := req) s1 s5 s3 h16 (by omega) hneed.1 ht (by omega) (last_of_free hch) hy
    rw [hp] at k1 k2
    have ht0 := (i.wf.top _ hr.size).2
    refine ⟨_, rfl, ⟨k1, ?_, hr.size⟩, ⟨?_, ?_, fun x hx => k2 x (by omega)⟩, ?_⟩
    · simp only
      rw [total_append, total_append, carve_total hneed.1, hr.top, htt]
    · refine same_of_region k2 ?_
      intro q z u ha _
      rw [he] at ha
      rcases at_mid ha with ha | ⟨-, e⟩ | ha
      · have := at_bound ha; omega
      · cases e
      · have := at_bound ha; simp only at this; omega
    · intro q z u ha _
      rw [he] at ha
      simp only
      rw [List.append_assoc]
      rcases at_mid ha with ha | ⟨-, e⟩ | ha
      · exact at_left ha
      · cases e
      · refine at_right (at_append.2 (.inr ?_))
        rw [carve_total hneed.1]
        exact ha
    · intro q hq
      injection hq with hq
      subst hq
      have hcv : ∃ z tl, carve s (need req) req = ⟨z, .user req⟩ :: tl := by
        unfold carve
        split
        · exact ⟨_, _, rfl⟩
        · exact ⟨_, _, rfl⟩
      obtain ⟨z, tl, e⟩ := hcv
      refine ⟨⟨z, l, tl ++ r, by simp only; rw [e]; simp, by rw [Nat.zero_add]; exact hp⟩, ?_⟩
      intro z' u' ha
      have hz := (WF.siz i.wf _ (at_mem ha)).2
      simp only at hz
      rw [he] at ha
      rcases at_mid ha with ha | ⟨-, e⟩ | ha
      · have := at_bound ha; omega
      · cases e
      · have := at_bound ha; simp only at this; omega
  | top =>
    simp only [Pick.choice] at sp ⊢
    have hneed : need req < c.topsize ∧ req < maxRequest ∧ b' = c.bins := by
      rcases sp with ⟨p', s', e, -⟩ | ⟨⟨-, h1, t, e, h2⟩ | ⟨e, -⟩, e3, -⟩
      · cases e
      · injection e with e; exact ⟨by omega, h1, e3⟩
      · cases e
    simp only [Heap.malloc, if_pos hneed.2.1, hr.size, if_pos hneed.1, Option.map_some]
    obtain ⟨hp, hlay⟩ := (lay_append h.chunks [] 0 1).1 (by rw [List.append_nil]; exact hr.lay)
    have hlast := last_of_top (i.wf.merged.2 (by rw [hr.size]; rfl))
    rw [hlast, Nat.zero_add] at hlay
    have hfr : ∀ x, x < c.top + 8 → setSizePinuse (st c.mem (c.top + need req + 8) ((c.topsize - need req) ||| 1)) c.top (need req) x = c.mem x := by
      intro x hx
      rw [setSizePinuse_ne (by omega), st_of_ne (by omega)]
    refine ⟨_, by rw [hr.top], ⟨?_, ?_, rfl⟩, ⟨?_, ?_, ?_⟩, ?_⟩
    · simp only
      refine lay_build (WF.siz i.wf) hp (fun x hx => hfr x (by rw [hr.top]; exact hx)) ?_
      rw [hlast, hr.top]
      refine lay_user ?_ ?_
      · unfold setSizePinuse
        rw [ld_st_same, or_three (by omega)]
        rw [or_three (by omega)]; omega
      · show ld _ _ = _
        unfold setSizePinuse
        rw [ld_st_ne (by omega), ld_st_same, or_one (by omega)]
        rw [or_one (by omega)]; omega
    · simp only [total_append, total]; rw [hr.top]; omega
    · refine same_of_region (a := c.top) (e := c.top + c.topsize) (fun x hx => ?_) ?_
      · rw [setSizePinuse_ne (by omega), st_of_ne (by omega)]
      · intro q z u ha _
        have := at_bound ha
        rw [hr.top]; omega
    · intro q z u ha _
      exact at_left ha
    · intro x hx
      rw [hcap, ← hr.top] at hx
      rw [setSizePinuse_ne (by omega), st_of_ne (by omega)]
    · intro q hq
      injection hq with hq
      subst hq
      refine ⟨⟨need req, h.chunks, [], rfl, by rw [Nat.zero_add, hr.top]⟩, ?_⟩
      intro z' u' ha
      have hz := (WF.siz i.wf _ (at_mem ha)).2
      have := at_bound ha
      simp only at hz
      have := hr.top
      omega
  | outside =>
    simp only [Pick.choice] at sp ⊢
    refine ⟨h, rfl, ⟨hr.lay, hr.top, hr.size⟩, Eff.refl _ _ _, fun p hp => by cases hp⟩

end Verif.Tag
