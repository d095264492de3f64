import Verif.Mm.Calls
/-!
# C98: all the symmetric memory of a PE
-/
namespace Verif.Mm
open Verif.Heap (accepted trueSize heapSize maxRequest callocReq)

/-- what the calls do, together: state, invariant and barriers after a legal call that returns -/
theorem step_inv {C : Cfg} (o : C.Ok) {s s' : St} {held : List (Nat × Nat)} (i : Inv C s held) {e : Env} {c : Call} {r : Ret} (hl : Legal C s held e c)
    (h : step C s e c = .ok (s', r)) : Inv C s' (after held r c) := by
  have fin : ∀ {x : Res (St × Ret)} {f : Ret → List (Nat × Nat)}, x = .ok (s', r) → (∃ t u, x = .ok (t, u) ∧ Inv C t (f u)) → Inv C s' (f r) := by
    rintro x f hx ⟨t, u, h1, h2⟩
    rw [hx] at h1
    injection h1 with h1
    injection h1 with h1 h3
    subst h1
    subst h3
    exact h2
  have mal : ∀ n, malloc C s e n = .ok (s', r) → Inv C s' (after.got r n held) := by
    intro n hm
    refine fin (f := fun r => after.got r n held) hm ?_
    unfold malloc
    split
    · exact ⟨_, _, rfl, i⟩
    · obtain ⟨h, r, h1, _, h2⟩ := malloc_ok o i e n n
      exact ⟨_, _, h1, h2⟩
  have al : ∀ a n, a ≤ 2 ^ 63 → align C s e a n = .ok (s', r) → Inv C s' (after.got r n held) := by
    intro a n ha hm
    obtain ⟨h, r, h1, _, h2⟩ := align_all o i e ha n
    exact fin (f := fun r => after.got r n held) hm ⟨_, _, h1, h2⟩
  have fr : ∀ p, Legal.freed C s held p → free C s e p = .ok (s', r) → Inv C s' (held.filter (fun x => x.1 ≠ p)) := by
    intro p hp hm
    obtain ⟨t, h1, h2⟩ := free_all o i e hp
    exact fin (f := fun _ => held.filter (fun x => decide (x.1 ≠ p))) hm ⟨_, _, h1, h2⟩
  have re : ∀ p n, (p = 0 ∨ p ∈ held.map Prod.fst) → realloc C s e p n = .ok (s', r) → Inv C s' (after.moved held r p n) := by
    intro p n hp hm
    by_cases h0 : p = 0
    · subst h0
      have hnot : ∀ x ∈ held, x.1 ≠ 0 := by
        intro x hx
        have := o.2
        rcases In.where_ o i (i.blocks x hx) with h | ⟨t, ht, h3, h4, _⟩
        · omega
        · have := (i.sp t ht).pos
          omega
      have hmv : ∀ r, after.moved held r 0 n = after.got r n held := by
        intro r
        have hf : held.filter (fun x => decide (x.1 ≠ 0)) = held := by
          rw [List.filter_eq_self]
          intro x hx
          exact decide_eq_true (hnot x hx)
        unfold after.moved after.got
        cases r.ptr <;> simp only [hf]
      rw [hmv]
      refine fin (f := fun r => after.got r n held) hm ?_
      unfold realloc
      split
      · exact ⟨_, _, rfl, i⟩
      · rw [if_pos rfl]
        obtain ⟨h, r, h1, _, h2⟩ := malloc_ok o i e n n
        exact ⟨_, _, h1, h2⟩
    · have hp := hp.resolve_left h0
      obtain ⟨x, hx, rfl⟩ := List.mem_map.1 hp
      rcases i.blocks x hx with ⟨q, h1, h2⟩ | ⟨t, ht, m, h1, h2⟩
      · rw [h1] at hm ⊢
        obtain ⟨h, r, h3, _, h4⟩ := realloc_heap o i e h2 n
        exact fin (f := fun r => after.moved held r (C.a0 + q) n) hm ⟨_, _, h3, h4⟩
      · by_cases hmax : n < maxRequest
        · rw [realloc_space o i e ht h1 hmax] at hm
          rcases foreign_not (C := C) (e := e) (p := x.1) with h | h <;> rw [h] at hm <;> cases hm
        · refine fin (f := fun r => after.moved held r x.1 n) hm ?_
          unfold realloc
          rw [if_neg (by omega), if_neg h0, if_pos (by omega)]
          exact ⟨_, _, rfl, i⟩
  have sm : ∀ t sz n, t ∈ s.spaces.map Sp.id → MemPool.Valid (2 ^ C.k) sz → n ≤ sz → spaceMalloc s t sz = .ok (s', r) → Inv C s' (after.got r n held) := by
    intro t sz n ht hv hn hm
    obtain ⟨u, hu, rfl⟩ := List.mem_map.1 ht
    obtain ⟨pool, live, r, h1, _, _, _, h2⟩ := spaceMalloc_ok o i hu hv hn
    exact fin (f := fun r => after.got r n held) hm ⟨_, _, h1, h2⟩
  cases c with
  | shmem_malloc n => exact mal n h
  | shmem_malloc_with_hints n hints => exact mal n h
  | shmem_calloc c n =>
    refine fin (f := fun r => after.got r (c * n) held) (x := shmem_calloc C s e c n) h ?_
    unfold shmem_calloc
    split
    · exact ⟨_, _, rfl, i⟩
    · unfold calloc
      split
      · exact ⟨_, _, rfl, i⟩
      · obtain ⟨h, r, h1, _, h2⟩ := calloc_ok o i e (callocReq c n) hl.1 hl.2
        exact ⟨_, _, h1, h2⟩
  | shmem_align a n => exact al a n hl.2 h
  | shmem_realloc p n => exact re p n hl.2 h
  | shmem_free p => exact fr p hl h
  | shmalloc n => exact mal n h
  | shmemalign a n => exact al a n hl.2 h
  | shrealloc p n => exact re p n hl.2 h
  | shfree p => exact fr p hl h
  | shmemx_space_create n =>
    obtain ⟨h1, h2, h3, h4⟩ := hl
    obtain ⟨pool, h5, h6⟩ := create_ok o i e h1 h2 h4
    exact fin (f := fun _ => held) (x := create C s e n) h ⟨_, _, h5, h6⟩
  | shmemx_space_destroy t =>
    obtain ⟨u, hu, rfl⟩ := List.mem_map.1 hl
    by_cases he : u.live = []
    · obtain ⟨h1, h2⟩ := (destroy_iff i hu).1 he
      exact fin (f := fun _ => held) (x := destroy s u.id) h ⟨_, _, h1, h2⟩
    · have h' : destroy s u.id = .ok (s', r) := h
      rw [(destroy_iff i hu).2 he] at h'
      cases h'
  | shmemx_space_malloc t n => exact sm t n n hl.1 hl.2 (Nat.le_refl _) h
  | shmemx_space_calloc t c n =>
    obtain ⟨h1, h2, rfl⟩ := hl
    have h' : space_calloc s t 1 n = .ok (s', r) := h
    unfold space_calloc at h'
    cases hs : spaceMalloc s t n with
    | abort => rw [hs] at h'; cases h'
    | ub => rw [hs] at h'; cases h'
    | hang => rw [hs] at h'; cases h'
    | ok y =>
      rw [hs, Res.bind_ok] at h'
      split at h'
      · cases h'
      · injection h' with h'
        subst h'
        exact sm t n (1 * n) h1 h2 (by omega) hs
  | shmemx_space_align t a n =>
    obtain ⟨h1, h2, ⟨j, hj, rfl⟩, h3⟩ := hl
    refine sm t _ n h1 h2 ?_ h
    have hp := Nat.two_pow_pos j
    exact (C11_align_least hj (by omega)).2.1

theorem hist_inv {C : Cfg} (o : C.Ok) {s : St} {held : List (Nat × Nat)} (h : Hist C s held) : Inv C s held := by
  induction h with
  | init h =>
    refine ⟨.init h, ?_, List.nodup_nil, ?_, List.Pairwise.nil, ?_, ?_, List.nodup_nil⟩
    · intro t ht; cases ht
    · intro t ht; cases ht
    · intro x hx; cases hx
    · rintro y (⟨q, _, h⟩ | ⟨t, ht, _⟩)
      · cases h
      · cases ht
  | call _ hl h i => exact step_inv o i hl h

/-- **C98 (blocks).** After any history of legal calls, by whatever names, the blocks that the user holds are pairwise disjoint, and each lies in
the memory of the heap or of one of the spaces. -/
theorem C98_blocks {C : Cfg} (o : C.Ok) {s : St} {held : List (Nat × Nat)} (h : Hist C s held) :
    held.Pairwise (fun x y => x.1 + x.2 ≤ y.1 ∨ y.1 + y.2 ≤ x.1) ∧
    ∀ x ∈ held, (C.base ≤ x.1 ∧ x.1 + x.2 ≤ C.base + trueSize C.k C.S) ∨ ∃ t ∈ s.spaces, t.base ≤ x.1 ∧ x.1 + x.2 ≤ t.base + t.size := by
  have i := hist_inv o h
  constructor
  · have hn : held.Pairwise (fun x y => x.1 ≠ y.1) := List.pairwise_map.1 i.nodup
    exact hn.imp_of_mem (fun hx hy hne => In.disj o i (i.blocks _ hx) (i.blocks _ hy) hne)
  · intro x hx
    rcases In.where_ o i (i.blocks x hx) with h | ⟨t, ht, h1, h2, h3⟩
    · exact .inl ⟨h.1, by omega⟩
    · exact .inr ⟨t, ht, h1, h3⟩

/-- **C98 (objects).** The memories of the heap and of the spaces never overlap. -/
theorem C98_objects {C : Cfg} (o : C.Ok) {s : St} {held : List (Nat × Nat)} (h : Hist C s held) :
    s.spaces.Pairwise (fun a b => a.base + a.size ≤ b.base ∨ b.base + b.size ≤ a.base) ∧
    ∀ t ∈ s.spaces, t.base + t.size ≤ C.base ∨ C.base + trueSize C.k C.S ≤ t.base :=
  ⟨(hist_inv o h).apart, (hist_inv o h).heapApart⟩

/-! ## `shmem_free` -/

/-- **C98 (free, heap, partial).** `shmem_free` of a block of the heap gives back exactly this block: the spaces are untouched, and the allocator keeps all other
blocks. Missing: blocks that start in the last part of the heap's memory, for which `shmem_free` does nothing (`C98_free_leaks`, C47). -/
theorem C98_free_heap_partial {C : Cfg} (o : C.Ok) {s : St} {held : List (Nat × Nat)} (h : Hist C s held) (e : Env) {x : Nat × Nat} (hx : x ∈ held)
    (h1 : C.base ≤ x.1) (h2 : x.1 < C.base + heapSize C.k C.S) :
    ∃ s', step C s e (.shmem_free x.1) = .ok (s', ⟨.null, 1⟩) ∧ Hist C s' (held.filter (fun y => y.1 ≠ x.1)) ∧ s'.spaces = s.spaces ∧
      ∀ q n, (q, n) ∈ s'.heap.live ↔ (q, n) ∈ s.heap.live ∧ C.base + 960 + q ≠ x.1 := by
  have i := hist_inv o h
  have hts := Ok.ge o
  have hlt := Ok.lt o
  rcases i.blocks x hx with ⟨q, h3, h4⟩ | ⟨t, ht, n, h3, _⟩
  · have hacc : accepted C.base C.k C.S (C.a0 + q) = true := (Heap.accepted_iff o.1 (by omega)).2 (by omega)
    obtain ⟨hp, h5, h6, -⟩ := free_heap o i e h4 hacc
    rw [← h3] at h5
    have hs : step C s e (.shmem_free x.1) = .ok ({ s with heap := hp }, ⟨.null, 1⟩) := h5
    refine ⟨{ s with heap := hp }, hs, .call h (c := .shmem_free x.1) (e := e) (show Legal.freed C s held x.1 from ⟨by omega, .inl (List.mem_map_of_mem hx)⟩) hs, rfl, ?_⟩
    intro q' n'
    show (q', n') ∈ hp.live ↔ _
    rw [h6]
    constructor
    · intro hm
      refine ⟨List.mem_of_mem_erase hm, ?_⟩
      intro he
      have : q' = q := by unfold Cfg.a0 at h3; omega
      subst this
      exact erase_gone (live_nodup o i.reach) h4 hm
    · rintro ⟨h7, h8⟩
      refine (List.mem_erase_of_ne ?_).2 h7
      intro he
      injection he with he _
      subst he
      exact h8 h3.symm
  · have a := (i.sp t ht).inside h3
    have b := i.heapApart t ht
    unfold Apart at b
    omega

/-- **C98 fails.** `shmem_free` of a block that starts in the last part of the heap's memory does nothing: the block is lost. -/
theorem C98_free_leaks {C : Cfg} (o : C.Ok) {s : St} {held : List (Nat × Nat)} (h : Hist C s held) (e : Env) {x : Nat × Nat} (hx : x ∈ held)
    (h1 : C.base + heapSize C.k C.S ≤ x.1) (h2 : x.1 < C.base + trueSize C.k C.S) :
    step C s e (.shmem_free x.1) = .ok (s, ⟨.null, 1⟩) ∧ ∃ q, x.1 = C.base + 960 + q ∧ (q, x.2) ∈ s.heap.live := by
  have i := hist_inv o h
  have hlt := Ok.lt o
  constructor
  · refine free_none i e (by omega) ?_ (fun t ht => ?_)
    · have : ¬accepted C.base C.k C.S x.1 = true := by rw [Heap.accepted_iff o.1 (by omega)]; omega
      simpa using this
    · have b := i.heapApart t ht
      unfold Apart at b
      omega
  · rcases i.blocks x hx with h3 | ⟨t, ht, n, h3, _⟩
    · exact h3
    · have a := (i.sp t ht).inside h3
      have b := i.heapApart t ht
      unfold Apart at b
      omega

/-- **C98 (free, spaces).** `shmem_free` of a block of a space finds the space and gives back exactly the pages of this block; the heap and
the other spaces are untouched. -/
theorem C98_free_space {C : Cfg} (o : C.Ok) {s : St} {held : List (Nat × Nat)} (h : Hist C s held) (e : Env) {x : Nat × Nat} (hx : x ∈ held) {t : Sp} (ht : t ∈ s.spaces)
    (h1 : t.base ≤ x.1) (h2 : x.1 < t.base + t.size) :
    ∃ s' t', step C s e (.shmem_free x.1) = .ok (s', ⟨.null, 1⟩) ∧ Hist C s' (held.filter (fun y => y.1 ≠ x.1)) ∧ s'.heap = s.heap ∧
      s'.spaces = s.spaces.map (fun u => if u.id = t.id then t' else u) ∧ t'.id = t.id ∧ t'.base = t.base ∧ t'.size = t.size ∧
      ∃ n, x.2 ≤ n ∧ ∀ c, MemPool.Used t'.pool.nused c ↔ MemPool.Used t.pool.nused c ∧
        ¬(x.1 ≤ t.base + c * 2 ^ C.k ∧ t.base + c * 2 ^ C.k < x.1 + MemPool.chunksOf (2 ^ C.k) n * 2 ^ C.k) := by
  have i := hist_inv o h
  rcases i.blocks x hx with ⟨q, h3, h4⟩ | ⟨u, hu, n, h3, h4⟩
  · have a := live_in o i.reach h4
    have b := i.heapApart t ht
    unfold Apart at b
    omega
  · have a := (i.sp u hu).inside h3
    have hut : u = t := by
      by_contra hne
      have b := i.spaces_apart hu ht hne
      unfold Apart at b
      omega
    subst hut
    have htop := (i.sp u hu).top
    obtain ⟨pool, h5, h6, h7, -⟩ := free_space o i e hu h3
    have hs : step C s e (.shmem_free x.1) = .ok (_, ⟨.null, 1⟩) := h7
    refine ⟨_, { u with pool := pool, live := u.live.erase (x.1, n) }, hs, .call h (c := .shmem_free x.1) (e := e) (show Legal.freed C s held x.1 from ⟨by omega, .inl (List.mem_map_of_mem hx)⟩) hs, rfl, ?_, rfl, rfl, rfl, n, h4, ?_⟩
    · show setPool s.spaces u.id pool (u.live.erase (x.1, n)) = _
      unfold setPool
      apply List.map_congr_left
      intro v hv
      by_cases he : v.id = u.id
      · rw [if_pos he, if_pos he, i.id_inj hv hu he]
      · rw [if_neg he, if_neg he]
    · obtain ⟨p', h8, _, h9⟩ := MemPool.C08_free_exact (i.sp u hu).region (i.sp u hu).hist h3
      rw [h5] at h8
      injection h8 with h8
      subst h8
      exact h9

/-- **C98 (free, nothing).** `shmem_free` of NULL, or of any address outside the symmetric objects, changes nothing (it still is a barrier). -/
theorem C98_free_other {C : Cfg} (o : C.Ok) {s : St} {held : List (Nat × Nat)} (h : Hist C s held) (e : Env) {p : Nat} (hp : p < 2 ^ 63)
    (h1 : p < C.base ∨ C.base + trueSize C.k C.S ≤ p) (h2 : ∀ t ∈ s.spaces, p < t.base ∨ t.base + t.size ≤ p) :
    step C s e (.shmem_free p) = .ok (s, ⟨.null, 1⟩) ∧ step C s e (.shmem_free 0) = .ok (s, ⟨.null, 1⟩) := by
  have i := hist_inv o h
  refine ⟨free_none i e hp (not_accepted o hp (by omega)) (fun t ht => by have := h2 t ht; omega),
    free_none i e (by omega) (not_accepted o (by omega) (by have := o.2; omega)) (fun t ht => by have := (i.sp t ht).pos; omega)⟩

/-! ## No failures -/

/-- The uses that the library cannot be asked to survive, or does not: destroying a space that has blocks; and where the code fails (C53,
`C98_realloc_space_fails`). -/
def Survives (s : St) (held : List (Nat × Nat)) : Call → Prop
  | .shmem_malloc _ => True
  | .shmem_malloc_with_hints _ _ => True
  | .shmem_calloc _ _ => True
  | .shmem_align _ _ => True
  | .shmem_realloc p _ => ∀ t ∈ s.spaces, ¬(t.base ≤ p ∧ p < t.base + t.size)
  | .shmem_free _ => True
  | .shmalloc _ => True
  | .shmemalign _ _ => True
  | .shrealloc p _ => ∀ t ∈ s.spaces, ¬(t.base ≤ p ∧ p < t.base + t.size)
  | .shfree _ => True
  | .shmemx_space_create _ => True
  | .shmemx_space_destroy id => ∀ t ∈ s.spaces, t.id = id → ∀ x ∈ held, ¬(t.base ≤ x.1 ∧ x.1 < t.base + t.size)
  | .shmemx_space_malloc _ _ => True
  | .shmemx_space_calloc _ _ _ => False
  | .shmemx_space_align _ _ _ => True

/-- **C98 (no failures, partial).** Every legal call returns: no assertion fails, the allocators are never misused, no loop runs forever. Missing: `shmem_realloc`
of blocks of spaces (`C98_realloc_space_fails`) and `shmemx_space_calloc` (C53). -/
theorem C98_total_partial {C : Cfg} (o : C.Ok) {s : St} {held : List (Nat × Nat)} (h : Hist C s held) {e : Env} {c : Call} (hl : Legal C s held e c) (hs : Survives s held c) :
    ∃ s' r, step C s e c = .ok (s', r) := by
  have i := hist_inv o h
  have mal : ∀ n, ∃ s' r, malloc C s e n = .ok (s', r) := by
    intro n
    unfold malloc
    split
    · exact ⟨_, _, rfl⟩
    · obtain ⟨h, r, h1, _⟩ := malloc_ok o i e n n
      exact ⟨_, _, h1⟩
  have re : ∀ p n, (p = 0 ∨ p ∈ held.map Prod.fst) → (∀ t ∈ s.spaces, ¬(t.base ≤ p ∧ p < t.base + t.size)) → ∃ s' r, realloc C s e p n = .ok (s', r) := by
    intro p n hp hs
    by_cases h0 : p = 0
    · unfold realloc
      split
      · exact ⟨_, _, rfl⟩
      · obtain ⟨h, r, h1, _⟩ := malloc_ok o i e n n
        exact ⟨_, _, h1⟩
    · obtain ⟨x, hx, rfl⟩ := List.mem_map.1 (hp.resolve_left h0)
      rcases i.blocks x hx with ⟨q, h1, h2⟩ | ⟨t, ht, m, h1, h2⟩
      · rw [h1]
        obtain ⟨h, r, h3, _⟩ := realloc_heap o i e h2 n
        exact ⟨_, _, h3⟩
      · have := (i.sp t ht).inside h1
        exact absurd ⟨this.2.1, by omega⟩ (hs t ht)
  have sm : ∀ t sz, t ∈ s.spaces.map Sp.id → MemPool.Valid (2 ^ C.k) sz → ∃ s' r, spaceMalloc s t sz = .ok (s', r) := by
    intro t sz ht hv
    obtain ⟨u, hu, rfl⟩ := List.mem_map.1 ht
    obtain ⟨pool, live, r, h1, _⟩ := spaceMalloc_ok o i hu hv (Nat.le_refl _)
    exact ⟨_, _, h1⟩
  have al : ∀ a n, a ≤ 2 ^ 63 → ∃ s' r, align C s e a n = .ok (s', r) := by
    intro a n ha
    obtain ⟨h, r, h1, _⟩ := align_all o i e ha n
    exact ⟨_, _, h1⟩
  have fr : ∀ p, Legal.freed C s held p → ∃ s' r, free C s e p = .ok (s', r) := by
    intro p hp
    obtain ⟨s', h1, _⟩ := free_all o i e hp
    exact ⟨_, _, h1⟩
  cases c with
  | shmem_malloc n => exact mal n
  | shmem_malloc_with_hints n hints => exact mal n
  | shmem_calloc c n =>
    show ∃ s' r, shmem_calloc C s e c n = .ok (s', r)
    unfold shmem_calloc
    split
    · exact ⟨_, _, rfl⟩
    · unfold calloc
      split
      · exact ⟨_, _, rfl⟩
      · obtain ⟨h, r, h1, _⟩ := calloc_ok o i e (callocReq c n) hl.1 hl.2
        exact ⟨_, _, h1⟩
  | shmem_align a n => exact al a n hl.2
  | shmem_realloc p n => exact re p n hl.2 hs
  | shmem_free p => exact fr p hl
  | shmalloc n => exact mal n
  | shmemalign a n => exact al a n hl.2
  | shrealloc p n => exact re p n hl.2 hs
  | shfree p => exact fr p hl
  | shmemx_space_create n =>
    obtain ⟨pool, h5, _⟩ := create_ok o i e hl.1 hl.2.1 hl.2.2.2
    exact ⟨_, _, h5⟩
  | shmemx_space_destroy t =>
    obtain ⟨u, hu, rfl⟩ := List.mem_map.1 hl
    have hnil : u.live = [] := by
      cases hlv : u.live with
      | nil => rfl
      | cons y l =>
        have hy : (y.1, y.2) ∈ u.live := by rw [hlv]; exact List.mem_cons_self ..
        obtain ⟨x, hx, hxe⟩ := List.mem_map.1 (i.spaceFull o hu hy)
        have := (i.sp u hu).inside hy
        exact absurd ⟨by omega, by omega⟩ (hs u hu rfl x hx)
    exact ⟨_, _, ((destroy_iff i hu).1 hnil).1⟩
  | shmemx_space_malloc t n => exact sm t n hl.1 hl.2
  | shmemx_space_calloc t c n => exact absurd hs id
  | shmemx_space_align t a n => exact sm t _ hl.1 hl.2.1

/-- **C98 (destroy).** A space can be destroyed exactly if the user holds no block in it; otherwise the program is aborted. All other memory stays as it is. -/
theorem C98_destroy {C : Cfg} (o : C.Ok) {s : St} {held : List (Nat × Nat)} (h : Hist C s held) (e : Env) {t : Sp} (ht : t ∈ s.spaces) :
    (step C s e (.shmemx_space_destroy t.id) = .ok ({ s with spaces := s.spaces.filter (fun u => u.id ≠ t.id) }, ⟨.null, 0⟩) ↔ ∀ x ∈ held, ¬(t.base ≤ x.1 ∧ x.1 < t.base + t.size)) ∧
    (step C s e (.shmemx_space_destroy t.id) = .abort ↔ ∃ x ∈ held, t.base ≤ x.1 ∧ x.1 < t.base + t.size) := by
  have i := hist_inv o h
  have hiff : t.live = [] ↔ ∀ x ∈ held, ¬(t.base ≤ x.1 ∧ x.1 < t.base + t.size) := by
    constructor
    · rintro hnil x hx ⟨h1, h2⟩
      rcases i.blocks x hx with ⟨q, h3, h4⟩ | ⟨u, hu, n, h3, h4⟩
      · have a := live_in o i.reach h4
        have b := i.heapApart t ht
        unfold Apart at b
        omega
      · have a := (i.sp u hu).inside h3
        have hut : u = t := by
          by_contra hne
          have b := i.spaces_apart hu ht hne
          unfold Apart at b
          omega
        subst hut
        rw [hnil] at h3
        cases h3
    · intro hno
      cases hlv : t.live with
      | nil => rfl
      | cons y l =>
        have hy : (y.1, y.2) ∈ t.live := by rw [hlv]; exact List.mem_cons_self ..
        obtain ⟨x, hx, hxe⟩ := List.mem_map.1 (i.spaceFull o ht hy)
        have := (i.sp t ht).inside hy
        exact absurd ⟨by omega, by omega⟩ (hno x hx)
  obtain ⟨a, b⟩ := destroy_iff i ht
  have hex : (∃ x ∈ held, t.base ≤ x.1 ∧ x.1 < t.base + t.size) ↔ t.live ≠ [] := by
    rw [Ne, hiff]
    constructor
    · rintro ⟨x, hx, hh⟩ hn
      exact hn x hx hh
    · intro hn
      by_contra hc
      apply hn
      intro x hx hh
      exact hc ⟨x, hx, hh⟩
  rw [hex, ← hiff]
  show (destroy s t.id = _ ↔ _) ∧ (destroy s t.id = _ ↔ _)
  constructor
  · constructor
    · intro hok
      by_contra hne
      rw [b hne] at hok
      cases hok
    · intro hn
      exact (a hn).1
  · constructor
    · intro hab hn
      rw [(a hn).1] at hab
      cases hab
    · exact b

/-! ## Barriers -/

/-- Number of barriers of a call that returns, from the arguments alone. -/
def barriersOf : Call → Nat
  | .shmem_malloc n => if n = 0 then 0 else 1
  | .shmem_malloc_with_hints n _ => if n = 0 then 0 else 1
  | .shmem_calloc c n => if c = 0 ∨ n = 0 then 0 else 1
  | .shmem_align _ _ => 1
  | .shmem_realloc p n => if p = 0 ∧ n = 0 then 0 else 1
  | .shmem_free _ => 1
  | .shmalloc n => if n = 0 then 0 else 1
  | .shmemalign _ _ => 1
  | .shrealloc p n => if p = 0 ∧ n = 0 then 0 else 1
  | .shfree _ => 1
  | .shmemx_space_create _ => 0
  | .shmemx_space_destroy _ => 0
  | .shmemx_space_malloc _ _ => 1
  | .shmemx_space_calloc _ _ _ => 1
  | .shmemx_space_align _ _ _ => 1

theorem heapCall_bar {C : Cfg} {s s' : St} {e : Env} {R : Nat} {c : Heap.Call} {r : Ret} (h : heapCall C s e R c = .ok (s', r)) : r.barriers = 1 := by
  unfold heapCall at h
  split at h
  · injection h with h
    injection h with _ h
    rw [← h]
  · cases h

theorem spaceMalloc_bar {s s' : St} {t n : Nat} {r : Ret} (h : spaceMalloc s t n = .ok (s', r)) : r.barriers = 1 := by
  unfold spaceMalloc at h
  split at h
  · rename_i u hu
    cases ha : MemPool.alloc u.pool n with
    | abort => rw [ha] at h; cases h
    | ub => rw [ha] at h; cases h
    | hang => rw [ha] at h; cases h
    | ok y =>
      rw [ha, Res.bind_ok] at h
      split at h
      · injection h with h
        injection h with _ h
        rw [← h]
      · injection h with h
        injection h with _ h
        rw [← h]
  · cases h

/-- **C98 (barriers).** In every state of the memory, whether and what the call can allocate, the number of barriers of a call depends on its arguments alone (for pointers: on whether they are NULL): PEs that
make the same collective calls meet in the same barriers. -/
theorem C98_barriers {C : Cfg} {s s' : St} {e : Env} {c : Call} {r : Ret} (h : step C s e c = .ok (s', r)) : r.barriers = barriersOf c := by
  have const : ∀ {x : Res (St × Ret)} {t : St} {p : Ptr} {b : Nat}, x = .ok (s', r) → x = .ok (t, ⟨p, b⟩) → r.barriers = b := by
    intro x t p b h1 h2
    rw [h1] at h2
    injection h2 with h2
    injection h2 with _ h2
    rw [h2]
  have mal : ∀ n, malloc C s e n = .ok (s', r) → r.barriers = if n = 0 then 0 else 1 := by
    intro n hm
    unfold malloc at hm
    split at hm
    · rename_i hz
      rw [if_pos hz]
      exact const hm rfl
    · rename_i hz
      rw [if_neg hz]
      exact heapCall_bar hm
  have al : ∀ a n, align C s e a n = .ok (s', r) → r.barriers = 1 := by
    intro a n hm
    unfold align at hm
    split at hm
    · exact heapCall_bar hm
    · cases hr : roundAl a with
      | abort => rw [hr] at hm; cases hm
      | ub => rw [hr] at hm; cases hm
      | hang => rw [hr] at hm; cases hm
      | ok y =>
        rw [hr, Res.bind_ok] at hm
        exact heapCall_bar hm
  have re : ∀ p n, realloc C s e p n = .ok (s', r) → r.barriers = if p = 0 ∧ n = 0 then 0 else 1 := by
    intro p n hm
    unfold realloc at hm
    by_cases hz : n = 0 ∧ p = 0
    · rw [if_pos hz] at hm
      rw [if_pos ⟨hz.2, hz.1⟩]
      exact const hm rfl
    · rw [if_neg hz] at hm
      rw [if_neg (fun h => hz ⟨h.2, h.1⟩)]
      split at hm
      · exact heapCall_bar hm
      · split at hm
        · exact const hm rfl
        · split at hm
          · exact heapCall_bar hm
          · rcases foreign_not (C := C) (e := e) (p := p) with h | h <;> rw [h] at hm <;> cases hm
  have fr : ∀ p, free C s e p = .ok (s', r) → r.barriers = 1 := by
    intro p hm
    unfold free at hm
    split at hm
    · split at hm
      · split at hm
        · exact const hm rfl
        · cases hm
      · cases hm
    · split at hm
      · rename_i t _
        cases hr : spaceFree s t p with
        | abort => rw [hr] at hm; cases hm
        | ub => rw [hr] at hm; cases hm
        | hang => rw [hr] at hm; cases hm
        | ok y =>
          rw [hr, Res.bind_ok] at hm
          exact const hm rfl
      · exact const hm rfl
  cases c with
  | shmem_malloc n => exact mal n h
  | shmem_malloc_with_hints n hints => exact mal n h
  | shmem_calloc c n =>
    have h' : shmem_calloc C s e c n = .ok (s', r) := h
    show r.barriers = if c = 0 ∨ n = 0 then 0 else 1
    unfold shmem_calloc at h'
    split at h'
    · rename_i hz
      rw [if_pos hz]
      exact const h' rfl
    · rename_i hz
      rw [if_neg hz]
      unfold calloc at h'
      rw [if_neg (fun h => hz (.inr h))] at h'
      exact heapCall_bar h'
  | shmem_align a n => exact al a n h
  | shmem_realloc p n => exact re p n h
  | shmem_free p => exact fr p h
  | shmalloc n => exact mal n h
  | shmemalign a n => exact al a n h
  | shrealloc p n => exact re p n h
  | shfree p => exact fr p h
  | shmemx_space_create n =>
    have h' : create C s e n = .ok (s', r) := h
    unfold create at h'
    split at h'
    · cases h'
    · cases hr : MemPool.init e.mem (C.spaceSize n) (2 ^ C.k) with
      | abort => rw [hr] at h'; cases h'
      | ub => rw [hr] at h'; cases h'
      | hang => rw [hr] at h'; cases h'
      | ok y =>
        rw [hr, Res.bind_ok] at h'
        exact const h' rfl
  | shmemx_space_destroy t =>
    have h' : destroy s t = .ok (s', r) := h
    unfold destroy at h'
    split at h'
    · rename_i u _
      cases hr : MemPool.destroy u.pool with
      | abort => rw [hr] at h'; cases h'
      | ub => rw [hr] at h'; cases h'
      | hang => rw [hr] at h'; cases h'
      | ok y =>
        rw [hr, Res.bind_ok] at h'
        exact const h' rfl
    · cases h'
  | shmemx_space_malloc t n => exact spaceMalloc_bar h
  | shmemx_space_calloc t c n =>
    have h' : space_calloc s t c n = .ok (s', r) := h
    unfold space_calloc at h'
    cases hr : spaceMalloc s t n with
    | abort => rw [hr] at h'; cases h'
    | ub => rw [hr] at h'; cases h'
    | hang => rw [hr] at h'; cases h'
    | ok y =>
      rw [hr, Res.bind_ok] at h'
      split at h'
      · cases h'
      · injection h' with h'
        subst h'
        exact spaceMalloc_bar hr
  | shmemx_space_align t a n => exact spaceMalloc_bar h

/-- **C98 (names).** The deprecated names and the allocation with hints do exactly what the names of today do. -/
theorem C98_names {C : Cfg} {s : St} {e : Env} (p n a : Nat) (hints : Int) :
    step C s e (.shmalloc n) = step C s e (.shmem_malloc n) ∧ step C s e (.shmem_malloc_with_hints n hints) = step C s e (.shmem_malloc n) ∧
    step C s e (.shmemalign a n) = step C s e (.shmem_align a n) ∧ step C s e (.shrealloc p n) = step C s e (.shmem_realloc p n) ∧
    step C s e (.shfree p) = step C s e (.shmem_free p) ∧ step C s e (.shmem_realloc 0 n) = step C s e (.shmem_malloc n) := by
  refine ⟨rfl, rfl, rfl, rfl, rfl, ?_⟩
  show realloc C s e 0 n = malloc C s e n
  unfold realloc malloc
  by_cases h : n = 0
  · rw [if_pos ⟨h, rfl⟩, if_pos h]
  · rw [if_neg (fun x => h x.1), if_pos rfl, if_neg h]

/-! ## Alignment -/

/-- **C98 (alignment).** `shmem_align` returns a pointer with the alignment asked for (a power of two), every other block of the heap is at a multiple of 16. -/
theorem C98_align {C : Cfg} (o : C.Ok) {s s' : St} {held : List (Nat × Nat)} (h : Hist C s held) {e : Env} {j n p b : Nat} (hj : j ≤ 63) (hn : n < 2 ^ 64)
    (hs : step C s e (.shmem_align (2 ^ j) n) = .ok (s', ⟨.at_ p, b⟩)) : 2 ^ j ∣ p := by
  have i := hist_inv o h
  have i' := step_inv o i (c := .shmem_align (2 ^ j) n) ⟨hn, Nat.pow_le_pow_right (by omega) hj⟩ hs
  have h' : align C s e (2 ^ j) n = .ok (s', ⟨.at_ p, b⟩) := hs
  unfold align at h'
  have hc : ∀ {R : Nat} {c : Heap.Call}, heapCall C s e R c = .ok (s', ⟨.at_ p, b⟩) → ∃ hh q, Dl.step C.a0 s.heap e.os c = some (hh, some q) ∧ p = C.a0 + q ∧ s'.heap = hh := by
    intro R c hc
    unfold heapCall at hc
    split at hc
    · rename_i hh q hq
      injection hc with hc
      injection hc with h1 h2
      injection h2 with h2 _
      cases q with
      | none => rcases ptr_none (C := C) (os := e.os) (req := R) with h | h <;> rw [h] at h2 <;> cases h2
      | some q =>
        injection h2 with h2
        exact ⟨hh, q, hq, h2.symm, by rw [← h1]⟩
    · cases hc
  split at h'
  · rename_i h16
    obtain ⟨hh, q, h1, h2, h3⟩ := hc h'
    have hm := grant_live (s := s.heap) (req := n) (show s.heap.grant n _ = some (hh, some q) from h1)
    have hin := live_in o i'.reach (q := q) (n := n) (by rw [h3, hm]; exact List.mem_cons_self ..)
    have h16' : 2 ^ j ∣ 2 ^ 4 := Nat.pow_dvd_pow 2 (by
      by_contra hc
      have : 2 ^ 5 ≤ 2 ^ j := Nat.pow_le_pow_right (by omega) (by omega)
      omega)
    rw [h2]
    exact h16'.trans hin.2.2
  · obtain ⟨m, h3, h4, h5, h6, h7⟩ := roundAl_ok (Nat.pow_le_pow_right (by omega : 0 < 2) hj)
    rw [h5, Res.bind_ok] at h'
    obtain ⟨hh, q, h8, h9, _⟩ := hc h'
    rw [Nat.log2_two_pow] at h8
    have hr := Dl.C70_refines o.1.base16 (Ok.dvd o) (by have := Ok.lt o; omega) i.reach
    obtain ⟨s1, o1, ch, e1, e2, -⟩ := Dl.step_ok (show 16 ∣ C.base + 960 by have := o.1.base16; omega) (by have := Ok.lt o; omega)
      (Heap.inv_reach (by have := o.1.base16; omega) (Ok.dvd o) hr.1) hr.2 e.os (.align m n) trivial
    rw [show C.base + 960 = C.a0 from rfl, h8] at e1
    injection e1 with e1
    injection e1 with e1 e1'
    subst e1'
    have := (Heap.C60_align o.1.base16 (Ok.dvd o) hr.1 e2).1
    rw [h9]
    exact (Nat.pow_dvd_pow 2 ((Nat.pow_le_pow_iff_right (by omega)).1 h6)).trans this

/-- **C98 (memory returned).** When the user holds nothing and no block was lost in the last part of the heap (C47), everything is as at the start: the heap is as new, and every page of every space is free. -/
theorem C98_restart_partial {C : Cfg} (o : C.Ok) {s : St} (h : Hist C s []) (hlost : ∀ x ∈ s.heap.live, 960 + x.1 < heapSize C.k C.S) :
    (∃ hp, Heap.fresh C.k C.S = some hp ∧ s.heap = ⟨hp, .init, []⟩) ∧ ∀ t ∈ s.spaces, MemPool.init t.base t.size (2 ^ C.k) = .ok t.pool := by
  have i := hist_inv o h
  constructor
  · have hnil : s.heap.live = [] := by
      cases hlv : s.heap.live with
      | nil => rfl
      | cons y l =>
        have hy : y ∈ s.heap.live := by rw [hlv]; exact List.mem_cons_self ..
        rcases i.full (C.a0 + y.1, y.2) (.inl ⟨y.1, rfl, hy⟩) with h' | h'
        · cases h'
        · have := hlost y hy
          unfold Cfg.a0 at h'
          simp only at h'
          omega
    exact Dl.C62_restart o.1.base16 (Ok.dvd o) (by have := Ok.lt o; omega) i.reach hnil
  · intro t ht
    have hnil : t.live = [] := by
      cases hlv : t.live with
      | nil => rfl
      | cons y l =>
        have hy : (y.1, y.2) ∈ t.live := by rw [hlv]; exact List.mem_cons_self ..
        have := i.spaceFull o ht hy
        cases this
    have hk := o.1.page'
    have R := (i.sp t ht).region
    have I := MemPool.hist_inv R (i.sp t ht).hist
    have hz := ((MemPool.C08_all_freed R (i.sp t ht).hist).1 hnil).1
    obtain ⟨p, h1, h2, h3, h4, h5⟩ := MemPool.init_wf (base := t.base) (size := t.size) (k := C.k) (by omega) rfl R.cnt R.fits
    rw [h1]
    congr 1
    have e1 : p.nchunks = t.pool.nchunks := by rw [h2.nch, I.wf.nch, h5, hz]
    cases p
    cases hpl : t.pool
    rw [hpl] at I hz e1
    have := I.hbase
    have := I.hchunk
    simp_all

/-! ## What fails -/

/-- **C98 fails.** `shmem_realloc` of a block of a space never works: it is handed to the allocator of the heap, which aborts, or takes what lies before the block for a chunk of the heap. -/
theorem C98_realloc_space_fails {C : Cfg} (o : C.Ok) {s : St} {held : List (Nat × Nat)} (h : Hist C s held) (e : Env) {x : Nat × Nat} (hx : x ∈ held) {t : Sp} (ht : t ∈ s.spaces)
    (h1 : t.base ≤ x.1) (h2 : x.1 < t.base + t.size) {n : Nat} (hn : n < maxRequest) :
    (step C s e (.shmem_realloc x.1 n) = .ub ∨ step C s e (.shmem_realloc x.1 n) = .abort) ∧
    (e.word (x.1 - 16 + 8) = 0 → step C s e (.shmem_realloc x.1 n) = .abort) := by
  have i := hist_inv o h
  rcases i.blocks x hx with ⟨q, h3, h4⟩ | ⟨u, hu, m, h3, h4⟩
  · have a := live_in o i.reach h4
    have b := i.heapApart t ht
    unfold Apart at b
    omega
  · have e1 : step C s e (.shmem_realloc x.1 n) = foreign C e x.1 := realloc_space o i e hu h3 hn
    rw [e1]
    refine ⟨foreign_not, ?_⟩
    intro hz
    unfold foreign
    simp only [hz]
    rw [if_neg]
    have hlt : x.1 < 2 ^ 63 := by have := (i.sp t ht).top; omega
    rintro ⟨_, _, h5, _⟩
    rw [Nat.zero_div, Nat.zero_mul, Nat.add_zero, Nat.mod_eq_of_lt (by omega)] at h5
    omega

/-- **C98 fails.** `shmem_realloc(ptr, 0)` does not free the block, as OpenSHMEM wants: it returns the same pointer, and the block stays allocated. -/
theorem C98_realloc_zero_fails {C : Cfg} (o : C.Ok) {s : St} {held : List (Nat × Nat)} (h : Hist C s held) (e : Env) {x : Nat × Nat} (hx : x ∈ held)
    (h1 : C.base ≤ x.1) (h2 : x.1 < C.base + trueSize C.k C.S) :
    ∃ s', step C s e (.shmem_realloc x.1 0) = .ok (s', ⟨.at_ x.1, 1⟩) ∧ ∃ q, x.1 = C.base + 960 + q ∧ (q, 0) ∈ s'.heap.live := by
  have i := hist_inv o h
  rcases i.blocks x hx with ⟨q, h3, h4⟩ | ⟨u, hu, m, h3, h4⟩
  · have i' := Heap.inv_reach (show 16 ∣ C.base + 960 by have := o.1.base16; omega) (Ok.dvd o) (Dl.C70_refines o.1.base16 (Ok.dvd o) (by have := Ok.lt o; omega) i.reach).1
    have hm := i'.held.mem_iff.1 h4
    obtain ⟨l, z, r, hf⟩ := Heap.find_user i'.wf.good hm
    simp only at hf
    have hgood := i'.wf.good ⟨z, .user x.2⟩ (by rw [(Heap.find_some hf).1]; simp)
    have hz : Heap.need 0 ≤ z := by
      have := hgood.2.2 x.2 rfl
      have h32 : Heap.need 0 = 32 := rfl
      have : 32 ≤ Heap.need x.2 := by unfold Heap.need; split <;> omega
      simp only at *
      omega
    have hlk := lookup_of_mem (live_nodup o i.reach) h4
    have es : ∃ y z, Dl.step C.a0 s.heap e.os (.realloc q 0) = some (⟨y, z, (q, 0) :: s.heap.live.erase (q, x.2)⟩, some q) := by
      refine ⟨Heap.shrink l z (Heap.need 0) 0 r s.heap.heap.top, Dl.reallocBins s.heap.bins l q z (Heap.need 0) 0 r s.heap.heap.top, ?_⟩
      simp only [Dl.step, hlk, Dl.realloc]
      rw [if_pos (by decide), hf]
      simp only [Heap.tryRealloc, if_pos hz]
    obtain ⟨y, z', es⟩ := es
    refine ⟨{ s with heap := ⟨y, z', (q, 0) :: s.heap.live.erase (q, x.2)⟩ }, ?_, q, h3, List.mem_cons_self ..⟩
    show realloc C s e x.1 0 = _
    unfold realloc
    rw [if_neg (by have := o.2; omega), if_neg (by have := o.2; omega), if_neg (by decide), h3, block_some h4]
    simp only [heapCall, es, Cfg.ptr]
  · have a := (i.sp u hu).inside h3
    have b := i.heapApart u hu
    unfold Apart at b
    omega

end Verif.Mm
