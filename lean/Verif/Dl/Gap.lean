import Verif.Dl.Props
/-!
# No allocation fails while there is room (C71); best fit (C72)
-/
namespace Verif.Dl
open Heap

/-- `n` bytes from offset `a` on, in the memory of a heap of `cap` bytes, that are in no block held nor within 64 bytes after one -/
def Gap (cap : Nat) (live : List (Nat × Nat)) (a n : Nat) : Prop := a + n ≤ cap - 1024 ∧ ∀ x ∈ live, x.1 + x.2 + 64 ≤ a ∨ a + n ≤ x.1

theorem need_le (r : Nat) : need r ≤ r + 32 := by unfold need; split <;> omega

/-- the chunk an offset is in -/
theorem chunk_at : ∀ {cs : List Chunk} {o a : Nat}, o ≤ a → a < o + total cs → ∃ l c r, cs = l ++ c :: r ∧ o + total l ≤ a ∧ a < o + total l + c.size := by
  intro cs
  induction cs with
  | nil => intro o a h1 h2; simp only [total] at h2; omega
  | cons c cs ih =>
    intro o a h1 h2
    simp only [total] at h2
    by_cases h : a < o + c.size
    · exact ⟨[], c, cs, rfl, by simpa [total] using h1, by simpa [total] using h⟩
    · obtain ⟨l, d, r, e, k1, k2⟩ := ih (o := o + c.size) (a := a) (by omega) (by omega)
      exact ⟨c :: l, d, r, by rw [e]; rfl, by simp only [total]; omega, by simp only [total]; omega⟩

theorem users_split {l r : List Chunk} {s q : Nat} : ∀ {o : Nat}, (o + total l, q) ∈ users o (l ++ ⟨s, .user q⟩ :: r) := by
  induction l with
  | nil => intro o; simp [users, total]
  | cons c l ih =>
    intro o
    obtain ⟨n, u⟩ := c
    have := @ih (o + n)
    rw [Nat.add_assoc] at this
    cases u <;> simp only [List.cons_append, users, total, List.mem_cons]
    · exact this
    · exact .inr this
    · exact this

/-- a gap is in one free chunk or in `top` -/
theorem gap_free {cap : Nat} {s : Sys} (i : Heap.Inv cap s) (ht : ∀ c ∈ s.heap.chunks, Tight c) (hd : ∀ c ∈ s.heap.chunks, c.use ≠ .dead)
    (hs : s.heap.top.isSome = true) {a n : Nat} (hn : 0 < n) (g : Gap cap s.live a n) :
    (∃ p z, fmap 0 s.heap.chunks p = some z ∧ n ≤ z) ∨ ∃ t, s.heap.top = some t ∧ n ≤ t := by
  obtain ⟨g1, g2⟩ := g
  have hcap := i.size
  obtain ⟨t, htop⟩ := Option.isSome_iff_exists.1 hs
  unfold Heap.cap at hcap
  rw [htop] at hcap
  simp only [hdr, foot, Option.getD_some] at hcap
  have huser : ∀ l z q r, s.heap.chunks = l ++ ⟨z, .user q⟩ :: r → total l + z ≤ a ∨ a + n ≤ total l := by
    intro l z q r e
    have hm : (total l, q) ∈ s.live := by
      rw [i.held.mem_iff, e]
      have := @users_split l r z q 0
      rwa [Nat.zero_add] at this
    have h1 := g2 _ hm
    have h2 : z ≤ need q + 32 := ht ⟨z, .user q⟩ (by rw [e]; simp) q rfl
    have h3 := need_le q
    simp only at h1
    omega
  by_cases ha : a < total s.heap.chunks
  · left
    obtain ⟨l, c, r, e, k1, k2⟩ := chunk_at (cs := s.heap.chunks) (o := 0) (Nat.zero_le a) (by omega)
    obtain ⟨z, u⟩ := c
    have hpos := WF.pos i.wf
    rw [e] at hpos
    obtain ⟨pl, -⟩ := pos_append.1 hpos
    have w := i.wf
    have hm := w.merged
    rw [show s.heap = ⟨l ++ ⟨z, u⟩ :: r, s.heap.top⟩ by rw [← e]] at hm
    obtain ⟨m1, m2, m3, m4, m5⟩ := merged_split hm
    simp only at k1 k2
    cases u with
    | dead => exact absurd rfl (hd ⟨z, .dead⟩ (by rw [e]; simp))
    | user q =>
      have := huser l z q r e
      omega
    | free =>
      refine ⟨total l, z, by rw [e]; exact fmap_at_free pl, ?_⟩
      cases r with
      | nil =>
        exact absurd rfl (m4 (by rw [htop]; rfl) ⟨z, .free⟩ (by simp))
      | cons d r =>
        obtain ⟨z', u'⟩ := d
        cases u' with
        | dead => exact absurd rfl (hd ⟨z', .dead⟩ (by rw [e]; simp))
        | free =>
          rw [List.isChain_cons] at m2
          exact absurd ⟨rfl, rfl⟩ (m2.1 ⟨z', .free⟩ (by simp))
        | user q =>
          have hp : 0 < z' := WF.pos i.wf ⟨z', .user q⟩ (by rw [e]; simp)
          have := huser (l ++ [⟨z, .free⟩]) z' q r (by rw [e]; simp)
          rw [total_append] at this
          simp only [total] at this
          omega
  · right
    exact ⟨t, htop, by omega⟩

/-- what the allocator knows in a history -/
theorem facts {base cap : Nat} {s : St} (hb : 16 ∣ base) (hc : 16 ∣ cap) (h64 : cap < 2 ^ 64) (r : Reach (base + 960) cap s) :
    HInv s.heap s.bins ∧ Heap.Inv cap ⟨s.heap, s.live⟩ ∧ (∀ c ∈ s.heap.chunks, Tight c) ∧ (∀ c ∈ s.heap.chunks, c.use ≠ .dead) ∧ s.heap.top.isSome = true := by
  obtain ⟨r1, r2⟩ := C70_refines hb hc h64 r
  have ha : 16 ∣ base + 960 := by omega
  have i := inv_reach ha hc r1
  have ht := top_reach hb hc h64 r
  exact ⟨⟨i.wf, r2, by have := i.size; simp only at this; omega⟩, i, tight_reach ha hc r1, nodead_reach r1 ht, ht⟩

theorem outside_of_none {h h' : Heap} {req : Nat} {ch : Choice} (e : Heap.malloc h req ch = some (h', none)) : ∃ seg, ch = .outside seg := by
  cases ch with
  | outside seg => exact ⟨seg, rfl⟩
  | chunk p =>
    simp only [Heap.malloc] at e
    split at e
    · split at e
      · split at e
        · simp only [Option.some.injEq, Prod.mk.injEq] at e
          cases e.2
        · cases e
      · cases e
      · cases e
      · cases e
    · cases e
  | top =>
    simp only [Heap.malloc] at e
    split at e
    · split at e
      · split at e
        · simp only [Option.some.injEq, Prod.mk.injEq] at e
          cases e.2
        · cases e
      · cases e
    · cases e

/-- a request is served if a gap is larger than the chunk needed -/
theorem malloc_gap {base cap : Nat} {s : St} (hb : 16 ∣ base) (hc : 16 ∣ cap) (h64 : cap < 2 ^ 64) (r : Reach (base + 960) cap s) {req a n : Nat}
    (hcap : 232 < req → cap ≤ 2 ^ 40) (hreq : req < maxRequest) (hn : need req < n) (g : Gap cap s.live a n) :
    ∃ h b q, malloc s.heap s.bins req = some ((h, b), some q) := by
  obtain ⟨hi, i, ht, hd, hs⟩ := facts hb hc h64 r
  have hlt : ∀ p z, fmap 0 s.heap.chunks p = some z → z < cap := by
    intro p z hp
    have h1 := fmap_bound hp
    have h2 := i.size
    unfold Heap.cap at h2
    simp only [hdr, foot] at h2
    omega
  have hg := gap_free i ht hd hs (by omega) g
  have sp := place_spec hi.bins fmap_apart hi.lt s.heap.top req
  obtain ⟨h', b', o, e1, e2, k⟩ := malloc_ok hi req
  cases o with
  | some q => exact ⟨h', b', q, e1⟩
  | none =>
    exfalso
    obtain ⟨seg, hseg⟩ := outside_of_none e2
    rcases sp with ⟨p, z, h1, -⟩ | ⟨⟨h1, -⟩ | ⟨h1, h2⟩, -, h3⟩
    · rw [hseg] at h1; cases h1
    · rw [hseg] at h1; cases h1
    · rcases hg with ⟨p, z, hp, hz⟩ | ⟨t, hp, hz⟩
      · have := h3 hreq (fun hr p z hp => by have := hlt p z hp; have := hcap hr; omega) p z hp
        omega
      · have := h2 t hp hreq
        omega

theorem gap_lt {cap req n : Nat} {live : List (Nat × Nat)} {a : Nat} (h64 : cap < 2 ^ 64) (g : Gap cap live a n) (h : req + 48 ≤ n) : req < maxRequest := by
  have := g.1
  unfold maxRequest
  omega

/-- **C71 (partial: heaps up to 1 TiB, or requests up to 232 bytes).** `shmem_malloc` returns a block of the heap whenever a gap of
the size asked for plus 48 bytes is left between the blocks, however the heap is fragmented and whatever happened before. Missing:
larger requests in larger heaps, for which it is false (`C71_fails`). -/
theorem C71_malloc_partial {base cap : Nat} {s : St} (hb : 16 ∣ base) (hc : 16 ∣ cap) (h64 : cap < 2 ^ 64) (r : Reach (base + 960) cap s) {req a : Nat}
    (hcap : 232 < req → cap ≤ 2 ^ 40) (g : Gap cap s.live a (req + 48)) (os : Bool) :
    ∃ s' q, step (base + 960) s os (.malloc req) = some (s', some q) := by
  have hn := need_le req
  obtain ⟨h, b, q, e⟩ := malloc_gap hb hc h64 r hcap (gap_lt h64 g (le_refl _)) (by omega) g
  exact ⟨⟨h, b, (q, req) :: s.live⟩, q, by simp only [step, e]; rfl⟩

/-- **C71 (partial).** The same for `shmem_calloc`. -/
theorem C71_calloc_partial {base cap : Nat} {s : St} (hb : 16 ∣ base) (hc : 16 ∣ cap) (h64 : cap < 2 ^ 64) (r : Reach (base + 960) cap s) {n sz a : Nat}
    (hn : n < 2 ^ 64) (hz : sz < 2 ^ 64) (hcap : 232 < n * sz → cap ≤ 2 ^ 40) (g : Gap cap s.live a (n * sz + 48)) (os : Bool) :
    ∃ s' q, step (base + 960) s os (.calloc n sz) = some (s', some q) := by
  have h := gap_lt h64 g (le_refl _)
  have e : callocReq n sz = n * sz := by
    rcases C60_calloc hn hz with e | ⟨-, e⟩
    · exact e
    · unfold maxRequest at h; omega
  obtain ⟨s', q, k⟩ := C71_malloc_partial hb hc h64 r hcap g os
  refine ⟨s', q, ?_⟩
  simp only [step] at k ⊢
  rw [e]; exact k

/-- **C71 (partial).** The same for `shmem_realloc` of a block that is held (the old block need not be counted as a gap). -/
theorem C71_realloc_partial {base cap : Nat} {s : St} (hb : 16 ∣ base) (hc : 16 ∣ cap) (h64 : cap < 2 ^ 64) (r : Reach (base + 960) cap s) {p r0 req a : Nat}
    (hp : (p, r0) ∈ s.live) (hcap : 232 < req → cap ≤ 2 ^ 40) (g : Gap cap s.live a (req + 48)) (os : Bool) :
    ∃ s' q, step (base + 960) s os (.realloc p req) = some (s', some q) := by
  have hn := need_le req
  have hreq := gap_lt h64 g (le_refl _)
  obtain ⟨h, b, q, e⟩ := malloc_gap hb hc h64 r hcap hreq (by omega) g
  obtain ⟨s', o, k⟩ := C70_total hb hc h64 r os (.realloc p req) ⟨r0, hp⟩
  cases o with
  | some q => exact ⟨s', q, k⟩
  | none =>
    exfalso
    simp only [step] at k
    split at k
    · cases k
    · split at k
      · simp only [Option.some.injEq, Prod.mk.injEq] at k
        cases k.2
      · rename_i x hx
        unfold realloc at hx
        rw [if_pos hreq] at hx
        split at hx
        · split at hx
          · simp only [Option.some.injEq, Prod.mk.injEq] at hx
            cases hx.2
          · rw [e] at hx
            simp only at hx
            cases hf : free h b p with
            | none => rw [hf] at hx; cases hx
            | some y =>
              rw [hf] at hx
              simp only [Option.map_some, Option.some.injEq, Prod.mk.injEq] at hx
              cases hx.2
        · cases hx
        · cases hx
        · cases hx
      · cases k

/-- **C71 (partial).** The same for `shmem_align`, with the alignment and 128 bytes to spare. -/
theorem C71_align_partial {base cap : Nat} {s : St} (hb : 16 ∣ base) (hc : 16 ∣ cap) (hcap : cap ≤ 2 ^ 40) (r : Reach (base + 960) cap s) {k req a : Nat}
    (g : Gap cap s.live a (req + 2 ^ k + 128)) (os : Bool) :
    ∃ s' q, step (base + 960) s os (.align k req) = some (s', some q) := by
  have hn := need_le req
  have h64 : cap < 2 ^ 64 := by omega
  have hg1 := g.1
  have h2k := Nat.two_pow_pos k
  obtain ⟨hi, i, ht, hd, hs⟩ := facts hb hc h64 r
  by_cases hk : 2 ^ k ≤ 16
  · obtain ⟨h, b, q, e⟩ := malloc_gap hb hc h64 r (req := req) (fun _ => hcap) (by unfold maxRequest; omega) (by omega) g
    exact ⟨⟨h, b, (q, req) :: s.live⟩, q, by simp only [step, if_pos hk, e]; rfl⟩
  · obtain ⟨h1, h2⟩ := pow_16 hk
    have hn' := need_le (need req + 2 ^ k + minChunk - 8)
    unfold minChunk at hn'
    obtain ⟨h, b, q, e⟩ := malloc_gap hb hc h64 r (req := need req + 2 ^ k + minChunk - 8) (fun _ => hcap)
      (by unfold maxRequest minChunk; omega) (by unfold minChunk; omega) g
    obtain ⟨h', b', o, e1, -, -⟩ := memalign_ok (a0 := base + 960) (by omega) h1 h2 hi req
    cases o with
    | some q => exact ⟨⟨h', b', (q, req) :: s.live⟩, q, by simp only [step, if_neg hk, e1]; rfl⟩
    | none =>
      exfalso
      unfold memalign at e1
      rw [if_pos (by unfold maxRequest; omega), e] at e1
      simp only at e1
      split at e1
      · split at e1
        · simp only [Option.some.injEq, Prod.mk.injEq] at e1
          cases e1.2
        · cases e1
        · cases e1
        · cases e1
      · cases e1
      · cases e1
      · cases e1

/-- a free chunk of `z` bytes at offset `p` -/
def FreeAt (h : Heap) (p z : Nat) : Prop := ∃ l r, h.chunks = l ++ ⟨z, .free⟩ :: r ∧ total l = p

theorem freeAt_iff {h : Heap} (hg : Pos h.chunks) {p z : Nat} : FreeAt h p z ↔ fmap 0 h.chunks p = some z := by
  constructor
  · rintro ⟨l, r, e, rfl⟩
    rw [e] at hg ⊢
    exact fmap_at_free (pos_append.1 hg).1
  · intro hp
    obtain ⟨l, r, hf⟩ := find_of_fmap hg hp
    obtain ⟨e, h0⟩ := find_some hf
    exact ⟨l, r, e, by omega⟩

/-- **C72 (partial: heaps up to 1 TiB).** A request for more than 232 bytes is served from a smallest free chunk in which it fits,
and from the untouched rest of the heap only if it fits in none. Missing: larger heaps, for which it is false (`C72_fails`). -/
theorem C72_bestfit_partial {base cap : Nat} {s s' : St} (hb : 16 ∣ base) (hc : 16 ∣ cap) (hcap : cap ≤ 2 ^ 40) (r : Reach (base + 960) cap s) {req : Nat}
    (hreq : 232 < req) {os : Bool} {o : Option Nat} (e : step (base + 960) s os (.malloc req) = some (s', o)) {p z : Nat} (hp : FreeAt s.heap p z)
    (hz : (req + 23) / 16 * 16 ≤ z) : ∃ q y, o = some q ∧ FreeAt s.heap q y ∧ (req + 23) / 16 * 16 ≤ y ∧
      ∀ p' z', FreeAt s.heap p' z' → (req + 23) / 16 * 16 ≤ z' → y ≤ z' := by
  have h64 : cap < 2 ^ 64 := by omega
  obtain ⟨hi, i, ht, hd, hs⟩ := facts hb hc h64 r
  have hpos := WF.pos i.wf
  have hnd : need req = (req + 23) / 16 * 16 := by unfold need; rw [if_neg (by omega)]
  have hlt : ∀ p z, fmap 0 s.heap.chunks p = some z → z < cap := by
    intro p z hp
    have h1 := fmap_bound hp
    have h2 := i.size
    unfold Heap.cap at h2
    simp only [hdr, foot] at h2
    omega
  simp only [freeAt_iff hpos] at hp ⊢
  rw [← hnd] at hz ⊢
  have h40 : ∀ p z, fmap 0 s.heap.chunks p = some z → z < 2 ^ 40 := fun p z h => by have := hlt p z h; omega
  have hzc := hlt p z hp
  have hn2 := need_fits req
  rcases place_spec hi.bins fmap_apart hi.lt s.heap.top req with ⟨q, y, h1, h2, h3, h4, -, h6⟩ | ⟨-, -, h3⟩
  · refine ⟨q, y, ?_, h2, h3, fun p' z' hp' hz' => h6 hreq h40 p' z' hp' hz'⟩
    obtain ⟨l, r', hf⟩ := find_of_fmap hpos h2
    simp only [step, malloc, h1, Heap.malloc, if_pos h4, hf, if_pos h3, Option.map_some, St.grant, Option.some.injEq, Prod.mk.injEq] at e
    exact e.2.symm
  · have := h3 (by unfold maxRequest; omega) (fun _ => h40) p z hp
    omega

end Verif.Dl
