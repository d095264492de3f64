import Verif.Tag.Malloc
/-!
# `mspace_free` and cutting chunks, on memory
-/
namespace Verif.Tag
open Heap Dl

/-! ## Chunks in use -/

theorem at_users {o p q : Nat} {cs : List Chunk} : (p, q) ∈ users o cs ↔ ∃ z, At o cs p z (.user q) := by
  induction cs generalizing o with
  | nil =>
    constructor
    · intro h; simp [users] at h
    · rintro ⟨z, l, r, e, -⟩; simp at e
  | cons c cs ih =>
    obtain ⟨s, u⟩ := c
    constructor
    · intro h
      cases u with
      | user w =>
        simp only [users, List.mem_cons, Prod.mk.injEq] at h
        rcases h with ⟨rfl, rfl⟩ | h
        · exact ⟨s, at_cons.2 (.inl ⟨rfl, rfl⟩)⟩
        · obtain ⟨z, hz⟩ := ih.1 h; exact ⟨z, at_cons.2 (.inr hz)⟩
      | free => simp only [users] at h; obtain ⟨z, hz⟩ := ih.1 h; exact ⟨z, at_cons.2 (.inr hz)⟩
      | dead => simp only [users] at h; obtain ⟨z, hz⟩ := ih.1 h; exact ⟨z, at_cons.2 (.inr hz)⟩
    · rintro ⟨z, h⟩
      rcases at_cons.1 h with ⟨rfl, e⟩ | h
      · injection e with e1 e2
        subst e1; subst e2
        simp [users]
      · have := ih.2 ⟨z, h⟩
        cases u <;> simp [users, this]

/-- chunks do not overlap -/
theorem at_apart {cs : List Chunk} (hs : Siz cs) : ∀ {o p q z z' : Nat} {u u' : Use}, At o cs p z u → At o cs q z' u' → p = q ∨ p + z ≤ q ∨ q + z' ≤ p := by
  induction cs with
  | nil => rintro o p q z z' u u' ⟨l, r, e, -⟩; simp at e
  | cons c cs ih =>
    intro o p q z z' u u' h1 h2
    rcases at_cons.1 h1 with ⟨e1, e2⟩ | k1
    · rcases at_cons.1 h2 with ⟨e3, e4⟩ | k2
      · left; omega
      · have := at_bound k2
        subst e2
        simp only at this
        omega
    · rcases at_cons.1 h2 with ⟨e3, e4⟩ | k2
      · have := at_bound k1
        subst e4
        simp only at this
        omega
      · exact ih (siz_cons.1 hs).2 k1 k2

theorem at_unique {cs : List Chunk} (hs : Siz cs) : ∀ {o p z z' : Nat} {u u' : Use}, At o cs p z u → At o cs p z' u' → z = z' ∧ u = u' := by
  induction cs with
  | nil => rintro o p z z' u u' ⟨l, r, e, -⟩; simp at e
  | cons c cs ih =>
    intro o p z z' u u' h1 h2
    obtain ⟨c0, hs'⟩ := siz_cons.1 hs
    rcases at_cons.1 h1 with ⟨e1, e2⟩ | k1
    · rcases at_cons.1 h2 with ⟨e3, e4⟩ | k2
      · rw [e2] at e4
        injection e4 with a b
        exact ⟨a, b⟩
      · have := at_bound k2; omega
    · rcases at_cons.1 h2 with ⟨e3, e4⟩ | k2
      · have := at_bound k1; omega
      · exact ih hs' k1 k2

/-! ## Giving back -/

theorem fwd_kept {l r : List Chunk} {s q z u : Nat} {t : Option Nat} (h : At 0 l q z (.user u) ∨ At (total l + s) r q z (.user u)) :
    At 0 (fwd l s r t).chunks q z (.user u) := by
  cases r with
  | nil =>
    rcases h with h | ⟨a, b, e, -⟩
    · cases t with
      | none => exact at_left h
      | some t => exact h
    · simp at e
  | cons c r =>
    obtain ⟨n, w⟩ := c
    cases w with
    | free =>
      rcases h with h | h
      · exact at_left h
      · refine at_right (at_cons.2 (.inr ?_))
        rcases at_cons.1 h with ⟨-, e⟩ | h
        · cases e
        · simp only [Nat.add_assoc] at h ⊢; exact h
    | user w => exact h.elim at_left (fun h => at_right (at_cons.2 (.inr h)))
    | dead => exact h.elim at_left (fun h => at_right (at_cons.2 (.inr h)))

theorem split_user {l r : List Chunk} {s q z u : Nat} {v : Use} (h : At 0 (l ++ ⟨s, v⟩ :: r) q z (.user u)) (hq : some q ≠ some (total l)) :
    At 0 l q z (.user u) ∨ At (total l + s) r q z (.user u) := by
  rcases at_mid h with h | ⟨h, -⟩ | h
  · exact .inl h
  · exact absurd (by rw [h]) hq
  · exact .inr h

theorem back_kept {l : List Chunk} {s q z u : Nat} (h : At 0 l q z (.user u)) : At 0 (back l s).1 q z (.user u) := by
  cases hp : prevFree l with
  | none => rw [prevFree_none hp]; exact h
  | some n =>
    obtain ⟨l0, rfl, hb⟩ := prevFree_some hp
    rw [hb]
    rcases at_append.1 h with h | h
    · exact h
    · rcases at_cons.1 h with ⟨-, e⟩ | ⟨a, b, e, -⟩
      · cases e
      · simp at e

theorem dispose_kept {l r : List Chunk} {s v : Nat} {t : Option Nat} : Kept (l ++ ⟨s, .user v⟩ :: r) (Heap.dispose l s r t).chunks (some (total l)) := by
  intro q z u h hq
  unfold Heap.dispose
  refine fwd_kept ?_
  rcases split_user h hq with h | h
  · exact .inl (back_kept h)
  · right
    rw [back_total]; exact h

theorem end_bound {l r : List Chunk} {s v q z u : Nat} (h : At 0 (l ++ ⟨s, .user v⟩ :: r) q z (.user u)) (hq : some q ≠ some (total l)) :
    q + z ≤ total (back l s).1 ∨ endOf (total l + s) r ≤ q := by
  rcases split_user h hq with h | h
  · left
    have := at_bound (back_kept (s := s) h); omega
  · right
    cases r with
    | nil => obtain ⟨a, b, e, -⟩ := h; simp at e
    | cons c r =>
      obtain ⟨n, w⟩ := c
      have hb := at_bound h
      cases w with
      | free =>
        rcases at_cons.1 h with ⟨-, e⟩ | h
        · cases e
        · have := at_bound h; simp only [endOf] at this ⊢; omega
      | user w => simp only [endOf]; omega
      | dead => simp only [endOf]; omega

theorem endOf_le {e : Nat} {r : List Chunk} : endOf e r ≤ e + total r := by
  cases r with
  | nil => simp [endOf]
  | cons c r => obtain ⟨n, w⟩ := c; cases w <;> simp [endOf, total] <;> omega

/-- `dispose_sim` with its effect -/
theorem dispose_eff {c : CS} {l r : List Chunk} {s q : Nat} (chk : Bool) (hs : Siz (l ++ ⟨s, .user q⟩ :: r)) (hc : l.IsChain NotBoth) (ht : 16 ∣ c.topsize) (ht0 : 0 < c.topsize)
    (h64 : total l + s + total r + c.topsize + 8 < 2 ^ 64) (hy : Lay c.mem c.topsize 0 1 (l ++ ⟨s, .user q⟩ :: r))
    (htop : c.top = total l + s + total r) (ib : BInv (fmap 0 (l ++ ⟨s, .user q⟩ :: r)) c.bins) :
    ∃ c', dispose chk c (total l) s = some c' ∧ Rep c' (Heap.dispose l s r (some c.topsize)) ∧
      c'.bins = disposeBins c.bins l (total l) s r (some c.topsize) ∧
      Eff ⟨l ++ ⟨s, .user q⟩ :: r, some c.topsize⟩ (Heap.dispose l s r (some c.topsize)) (some (total l)) c.mem c'.mem := by
  obtain ⟨c', e, r1, b1, f⟩ := dispose_sim chk hs hc ht h64 hy htop ib
  refine ⟨c', e, r1, b1, ?_, dispose_kept, ?_⟩
  · exact same_of_region f (fun q z u h hq => end_bound h hq)
  · intro x hx
    refine f x ?_
    rcases hx with hx | hx
    · left; omega
    · right
      have : endOf (total l + s) r ≤ total l + s + total r := endOf_le
      simp only [Heap.cap, total_append, total, Option.getD_some] at hx
      omega

theorem free_sim {c : CS} {h : Heap} (ok : OK c h) {p q : Nat} (hu : (p, q) ∈ users 0 h.chunks) :
    ∃ c' h', free c p = some c' ∧ Dl.free h c.bins p = some (h', c'.bins) ∧ Rep c' h' ∧ Eff h h' (some p) c.mem c'.mem := by
  obtain ⟨l, s, r, hf⟩ := find_user ok.inv.wf.good hu
  obtain ⟨hc, hp⟩ := find_some hf
  rw [Nat.zero_add] at hp
  have hh : h = ⟨l ++ ⟨s, .user q⟩ :: r, some c.topsize⟩ := by rw [← hc, ← ok.rep.size]
  obtain ⟨ht, ht0⟩ := ok.inv.wf.top _ ok.rep.size
  have hsz := WF.siz ok.inv.wf
  rw [hc] at hsz
  obtain ⟨s1, s2⟩ := siz_append.1 hsz
  obtain ⟨⟨s3, s4⟩, s5⟩ := siz_cons.1 s2
  simp only at s3 s4
  have hlay := ok.rep.lay
  rw [hc] at hlay
  have hm := merged_split (by have := ok.inv.wf.merged; rw [hh] at this; exact this)
  have hb := ok.inv.bins
  rw [hc] at hb
  have hcap := ok.big
  have hcap' : total h.chunks = total l + s + total r := by rw [hc, total_append]; simp only [total]; omega
  rw [ok.cap, hcap'] at hcap
  obtain ⟨c', e, r1, b1, ef⟩ := dispose_eff true hsz hm.1 ht ht0 (by omega) hlay (by rw [ok.rep.top]; exact hcap') hb
  obtain ⟨hpre, hl2⟩ := (lay_append l _ 0 1).1 hlay
  rw [Nat.zero_add] at hl2
  obtain ⟨f1, f2, f3, f4⟩ := head_flags hl2.1 (by simp only; omega) (lastUse_lt (by omega) l) (inUse_lt _)
  subst hp
  refine ⟨c', Heap.dispose l s r (some c.topsize), ?_, ?_, r1, by rw [hh]; exact ef⟩
  · unfold free
    rw [if_neg (by rw [f3]; simp only [inUse]; omega), f4]
    exact e
  · simp only [Dl.free, hf]
    rw [ok.rep.size, b1]

/-! ## Marking a chunk as in use -/

theorem setInuse_ne {m : Mem} {p s x : Nat} (h : x < p + 8 ∨ p + 16 ≤ x) (h' : x < p + s + 8 ∨ p + s + 16 ≤ x) : setInuse m p s x = m x := by
  unfold setInuse
  rw [setPinuse_ne h', st_of_ne (by omega)]

theorem or_one_mod (w : Nat) : (w ||| 1) % 2 = 1 := by
  have h := Nat.testBit_or w 1 0
  simp only [Nat.testBit_zero] at h
  simpa using h

theorem or_one_lt {w : Nat} (h : w < 2 ^ 64) : w ||| 1 < 2 ^ 64 := Nat.or_lt_two_pow h (by omega)

theorem setInuse_head {m : Mem} {p s b : Nat} (hs : 16 ∣ s) (h0 : 0 < s) (h64 : s + 8 < 2 ^ 64) (hb : ld m (p + 8) % 2 = b) :
    ld (setInuse m p s) (p + 8) = s + b + 2 := by
  unfold setInuse setPinuse
  rw [ld_st_ne (by omega)]
  have : b < 2 := by omega
  rw [show head m p &&& 1 = b by unfold head; rw [and_one]; exact hb]
  rw [or_flag (by omega) this, ld_st_same (by omega)]

theorem setInuse_next {m : Mem} {p s : Nat} (hs : 16 ∣ s) (h0 : 0 < s) : ld (setInuse m p s) (p + s + 8) % 2 = 1 := by
  unfold setInuse setPinuse
  rw [ld_st_same]
  · exact or_one_mod _
  · exact or_one_lt (ld_lt _ _)

/-- the chunks up to the one that becomes in use -/
theorem setInuse_pre {m : Mem} {l : List Chunk} {s u : Nat} (hl : Siz l) (hs : 16 ∣ s) (h0 : 0 < s) (h64 : s + 8 < 2 ^ 64) (hp : Pre m 0 1 l)
    (hb : ld m (total l + 8) % 2 = lastUse 1 l) : Pre (setInuse m (total l) s) 0 1 (l ++ [⟨s, .user u⟩]) := by
  rw [pre_append]
  refine ⟨pre_congr hl (fun x hx => setInuse_ne (by omega) (by omega)) hp, ?_, ?_, trivial⟩
  · rw [Nat.zero_add, setInuse_head hs h0 h64 hb]
    simp [inUse]
  · intro h; cases h

/-- `set_inuse` -/
theorem setInuse_lay {m : Mem} {t : Nat} {l r : List Chunk} {s u b : Nat} (hl : Siz l) (hr : Siz r) (hs : 16 ∣ s) (h0 : 0 < s) (ht : 16 ∣ t)
    (h64 : total l + s + total r + t + 8 < 2 ^ 64) (hp : Pre m 0 1 l) (hb : ld m (total l + 8) % 2 = lastUse 1 l) (hb2 : b < 2)
    (hy : Lay m t (total l + s) b r) : Lay (setInuse m (total l) s) t 0 1 (l ++ ⟨s, .user u⟩ :: r) := by
  have := (lay_append (m := setInuse m (total l) s) (t := t) (l ++ [⟨s, .user u⟩]) r 0 1).2 ⟨setInuse_pre hl hs h0 (by omega) hp hb, ?_⟩
  · simpa using this
  · rw [lastUse_snoc, total_snoc, Nat.zero_add]
    exact lay_setPinuse ht hr hb2 (by omega) (lay_congr hr (fun x hx => st_of_ne (by omega)) hy)

/-- `cut` -/
theorem cut_sim {c : CS} {l r : List Chunk} {nb rs u v b : Nat} (hl : Siz l) (hr : Siz r) (hn : 16 ∣ nb) (hn0 : 0 < nb) (hs : 16 ∣ rs) (h0 : 0 < rs) (ht : 16 ∣ c.topsize) (ht0 : 0 < c.topsize)
    (hc : l.IsChain NotBoth) (h64 : total l + nb + rs + total r + c.topsize + 8 < 2 ^ 64) (hp : Pre c.mem 0 1 l) (hb : ld c.mem (total l + 8) % 2 = lastUse 1 l)
    (hb2 : b < 2) (hy : Lay c.mem c.topsize (total l + nb + rs) b r) (htop : c.top = total l + nb + rs + total r)
    (ib : BInv (fmap 0 ((l ++ [⟨nb, .user u⟩]) ++ ⟨rs, .user v⟩ :: r)) c.bins) :
    ∃ c', cut c (total l) nb rs = some c' ∧ Rep c' (Heap.dispose (l ++ [⟨nb, .user u⟩]) rs r (some c.topsize)) ∧
      c'.bins = disposeBins c.bins (l ++ [⟨nb, .user u⟩]) (total l + nb) rs r (some c.topsize) ∧
      (∀ x, x < total l + 8 ∨ endOf (total l + nb + rs) r + 16 ≤ x ∨ (total l + 16 ≤ x ∧ x < total l + nb + 8) → c'.mem x = c.mem x) := by
  have hl1 : Siz (l ++ [⟨nb, .user u⟩]) := siz_append.2 ⟨hl, siz_cons.2 ⟨⟨hn, hn0⟩, fun c hc => by simp at hc⟩⟩
  have e1 : total (l ++ [⟨nb, .user u⟩]) = total l + nb := total_snoc
  have hlay : Lay (setInuse (setInuse c.mem (total l) nb) (total l + nb) rs) c.topsize 0 1 ((l ++ [⟨nb, .user u⟩]) ++ ⟨rs, .user v⟩ :: r) := by
    have := setInuse_lay (m := setInuse c.mem (total l) nb) (t := c.topsize) (u := v) (b := b) hl1 hr hs h0 ht (by omega) (setInuse_pre hl hn hn0 (by omega) hp hb)
      (by rw [e1, setInuse_next hn hn0, lastUse_snoc]; rfl) hb2 (lay_congr hr (fun x hx => setInuse_ne (by omega) (by omega)) (by rw [e1]; exact hy))
    rw [e1] at this
    exact this
  have hchain : (l ++ [(⟨nb, .user u⟩ : Chunk)]).IsChain NotBoth := by
    rw [isChain_mid]
    refine ⟨hc, List.isChain_nil, fun d _ h => by simp at h, by simp⟩
  obtain ⟨c', k1, k2, k3, k4⟩ := dispose_sim (c := { c with mem := setInuse (setInuse c.mem (total l) nb) (total l + nb) rs }) false
    (siz_append.2 ⟨hl1, siz_cons.2 ⟨⟨hs, h0⟩, hr⟩⟩) hchain ht (by simp only; omega) hlay (by simp only; omega) ib
  rw [e1] at k1 k3 k4
  rw [prevFree_none prevFree_snoc] at k4
  simp only at k4
  rw [e1] at k4
  refine ⟨c', k1, k2, k3, ?_⟩
  intro x hx
  have hle := le_endOf (total l + nb + rs) r
  rw [k4 x (by omega), setInuse_ne (by omega) (by omega), setInuse_ne (by omega) (by omega)]

end Verif.Tag
