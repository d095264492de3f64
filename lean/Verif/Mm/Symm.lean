import Verif.Mm.Props
/-!
# C98: symmetric calls on two PEs

Two PEs make the same calls, each with its own addresses of the same objects.
-/
namespace Verif.Mm
open Verif.Heap (accepted trueSize heapSize maxRequest callocReq)

/-- A symmetric location: NULL, the byte at an offset of the heap, the byte at an offset of the space created as number `i` of those that exist. -/
inductive Loc where
  | null
  | heap (d : Nat)
  | space (i d : Nat)
deriving DecidableEq, Repr

/-- the address of a location on a PE -/
def addr (C : Cfg) (s : St) : Loc → Nat
  | .null => 0
  | .heap d => C.base + d
  | .space i d => match s.spaces[i]? with
    | some t => t.base + d
    | none => 0

/-- the handle of space number `i` on a PE -/
def handleAt (s : St) (i : Nat) : Nat := match s.spaces[i]? with
  | some t => t.id
  | none => 0

/-- the location is in its object -/
def Inside (C : Cfg) (s : St) : Loc → Prop
  | .null => True
  | .heap d => d < trueSize C.k C.S
  | .space i d => ∃ t, s.spaces[i]? = some t ∧ d < t.size

/-- the same call with other pointers and handles -/
def CallOf.map {P Q H K : Type} (f : P → Q) (g : H → K) : CallOf P H → CallOf Q K
  | .shmem_malloc n => .shmem_malloc n
  | .shmem_malloc_with_hints n h => .shmem_malloc_with_hints n h
  | .shmem_calloc c n => .shmem_calloc c n
  | .shmem_align a n => .shmem_align a n
  | .shmem_realloc p n => .shmem_realloc (f p) n
  | .shmem_free p => .shmem_free (f p)
  | .shmalloc n => .shmalloc n
  | .shmemalign a n => .shmemalign a n
  | .shrealloc p n => .shrealloc (f p) n
  | .shfree p => .shfree (f p)
  | .shmemx_space_create n => .shmemx_space_create n
  | .shmemx_space_destroy t => .shmemx_space_destroy (g t)
  | .shmemx_space_malloc t n => .shmemx_space_malloc (g t) n
  | .shmemx_space_calloc t c n => .shmemx_space_calloc (g t) c n
  | .shmemx_space_align t a n => .shmemx_space_align (g t) a n

/-- a call with symmetric arguments -/
abbrev SymCall := CallOf Loc Nat

/-- a symmetric call as a PE makes it -/
def on (C : Cfg) (s : St) (c : SymCall) : Call := c.map (addr C s) (handleAt s)

/-- the arguments of a symmetric call exist -/
def Args (C : Cfg) (s : St) : SymCall → Prop
  | .shmem_malloc _ => True
  | .shmem_malloc_with_hints _ _ => True
  | .shmem_calloc _ _ => True
  | .shmem_align _ _ => True
  | .shmem_realloc p _ => Inside C s p
  | .shmem_free p => Inside C s p
  | .shmalloc _ => True
  | .shmemalign _ _ => True
  | .shrealloc p _ => Inside C s p
  | .shfree p => Inside C s p
  | .shmemx_space_create _ => True
  | .shmemx_space_destroy t => t < s.spaces.length
  | .shmemx_space_malloc t _ => t < s.spaces.length
  | .shmemx_space_calloc t _ _ => t < s.spaces.length
  | .shmemx_space_align t _ _ => t < s.spaces.length

/-- the heaps of two PEs are placed alike with respect to the alignment `al`: they are congruent modulo every power of two below `2 * al` -/
def Alike (C₁ C₂ : Cfg) (al : Nat) : Prop := ∀ j, 2 ^ j < 2 * al → C₁.base % 2 ^ j = C₂.base % 2 ^ j

/-- alignments that the call asks from the heap -/
def AlikeFor (C₁ C₂ : Cfg) : SymCall → Prop
  | .shmem_malloc _ => True
  | .shmem_malloc_with_hints _ _ => True
  | .shmem_calloc _ _ => True
  | .shmem_align a _ => Alike C₁ C₂ a
  | .shmem_realloc _ _ => True
  | .shmem_free _ => True
  | .shmalloc _ => True
  | .shmemalign a _ => Alike C₁ C₂ a
  | .shrealloc _ _ => True
  | .shfree _ => True
  | .shmemx_space_create _ => True
  | .shmemx_space_destroy _ => True
  | .shmemx_space_malloc _ _ => True
  | .shmemx_space_calloc _ _ _ => True
  | .shmemx_space_align _ _ _ => True

/-- Two PEs that made the same symmetric calls. The surroundings may put the spaces anywhere; the system gives memory to both or to none. -/
inductive Twin (C₁ C₂ : Cfg) : St → List (Nat × Nat) → St → List (Nat × Nat) → Prop
  | init {h₁ h₂ : Heap.Heap} : Heap.fresh C₁.k C₁.S = some h₁ → Heap.fresh C₂.k C₂.S = some h₂ → Twin C₁ C₂ ⟨⟨h₁, .init, []⟩, []⟩ [] ⟨⟨h₂, .init, []⟩, []⟩ []
  | call {s₁ s₂ s₁' s₂' : St} {l₁ l₂ : List (Nat × Nat)} {e₁ e₂ : Env} {c : SymCall} {r₁ r₂ : Ret} : Twin C₁ C₂ s₁ l₁ s₂ l₂ → Args C₁ s₁ c → AlikeFor C₁ C₂ c → e₁.os = e₂.os →
      Legal C₁ s₁ l₁ e₁ (on C₁ s₁ c) → Legal C₂ s₂ l₂ e₂ (on C₂ s₂ c) → step C₁ s₁ e₁ (on C₁ s₁ c) = .ok (s₁', r₁) → step C₂ s₂ e₂ (on C₂ s₂ c) = .ok (s₂', r₂) →
      Twin C₁ C₂ s₁' (after l₁ r₁ (on C₁ s₁ c)) s₂' (after l₂ r₂ (on C₂ s₂ c))

/-- two pointers are the same symmetric location on their PEs -/
def SamePtr (C₁ C₂ : Cfg) (s₁ s₂ : St) (p q : Ptr) : Prop :=
  (p = .null ∧ q = .null) ∨ (p = .system ∧ q = .system) ∨ ∃ l, l ≠ .null ∧ Inside C₁ s₁ l ∧ Inside C₂ s₂ l ∧ p = .at_ (addr C₁ s₁ l) ∧ q = .at_ (addr C₂ s₂ l)

/-- the allocators of two PEs are the same up to where the memory is -/
structure Same (s₁ s₂ : St) : Prop where
  heap : s₁.heap = s₂.heap
  len : s₁.spaces.length = s₂.spaces.length
  sp : ∀ {j : Nat} {t₁ t₂ : Sp}, s₁.spaces[j]? = some t₁ → s₂.spaces[j]? = some t₂ → t₁.size = t₂.size ∧ t₁.pool.nused = t₂.pool.nused

theorem Same.mk_heap {s₁ s₂ : St} (S : Same s₁ s₂) (h : Dl.St) : Same { s₁ with heap := h } { s₂ with heap := h } := ⟨rfl, S.len, fun h1 h2 => S.sp h1 h2⟩

theorem Same.find {s₁ s₂ : St} (S : Same s₁ s₂) {j : Nat} {t₁ : Sp} (h : s₁.spaces[j]? = some t₁) : ∃ t₂, s₂.spaces[j]? = some t₂ ∧ t₁.size = t₂.size ∧ t₁.pool.nused = t₂.pool.nused := by
  have hj := (List.getElem?_eq_some_iff.1 h).1
  have hj2 : j < s₂.spaces.length := by rw [← S.len]; exact hj
  exact ⟨s₂.spaces[j], List.getElem?_eq_getElem hj2, S.sp h (List.getElem?_eq_getElem hj2)⟩

/-- a pointer that a call of the heap returns is a block -/
theorem dl_ret {a : Nat} {s h : Dl.St} {os : Bool} {c : Heap.Call} {q : Nat} (e : Dl.step a s os c = some (h, some q)) : ∃ n, (q, n) ∈ h.live := by
  have g : ∀ {req : Nat} {x}, s.grant req x = some (h, some q) → ∃ n, (q, n) ∈ h.live := by
    intro req x hx
    exact ⟨req, by rw [grant_live hx]; exact List.mem_cons_self ..⟩
  cases c with
  | malloc n => exact g e
  | calloc c n => exact g e
  | align k n =>
    simp only [Dl.step] at e
    split at e <;> exact g e
  | realloc p n =>
    simp only [Dl.step] at e
    split at e
    · cases e
    · split at e
      · injection e with e
        injection e with e1 e2
        injection e2 with e2
        subst e2
        exact ⟨n, by rw [← e1]; exact List.mem_cons_self ..⟩
      · injection e with e
        injection e with e1 e2
        cases e2
      · cases e
  | free p =>
    simp only [Dl.step] at e
    split at e
    · cases e
    · rename_i r hr
      cases hf : Dl.free s.heap s.bins p with
      | none => rw [hf] at e; cases e
      | some x =>
        rw [hf] at e
        injection e with e
        injection e with _ e
        cases e

variable {C₁ C₂ : Cfg}

/-- a call of the heap -/
theorem heapCall_same (o₁ : C₁.Ok) (hk : C₁.k = C₂.k) (hS : C₁.S = C₂.S) {s₁ s₂ s₁' : St} {l₁ : List (Nat × Nat)} (i₁ : Inv C₁ s₁ l₁) (S : Same s₁ s₂) {e₁ e₂ : Env} (he : e₁.os = e₂.os)
    {R : Nat} {c : Heap.Call} {r₁ : Ret} (hd : Dl.step C₁.a0 s₁.heap e₁.os c = Dl.step C₂.a0 s₁.heap e₁.os c) (h : heapCall C₁ s₁ e₁ R c = .ok (s₁', r₁)) :
    ∃ s₂' r₂, heapCall C₂ s₂ e₂ R c = .ok (s₂', r₂) ∧ Same s₁' s₂' ∧ r₁.barriers = r₂.barriers ∧ SamePtr C₁ C₂ s₁' s₂' r₁.ptr r₂.ptr := by
  unfold heapCall at h ⊢
  rw [← S.heap, ← he, ← hd]
  split at h
  · rename_i hp q es
    injection h with h
    injection h with h1 h2
    subst h1
    subst h2
    refine ⟨_, _, rfl, S.mk_heap hp, rfl, ?_⟩
    cases q with
    | none =>
      unfold Cfg.ptr
      simp only
      split
      · exact .inr (.inl ⟨rfl, rfl⟩)
      · exact .inl ⟨rfl, rfl⟩
    | some q =>
      obtain ⟨n, hn⟩ := dl_ret es
      have hin := live_in o₁ (.step i₁.reach es) hn
      unfold Cfg.a0 at hin
      have hlt : 960 + q < trueSize C₁.k C₁.S := by omega
      refine .inr (.inr ⟨.heap (960 + q), (fun h => by cases h), hlt, (by rw [hk, hS] at hlt; exact hlt), ?_, ?_⟩)
      · unfold Cfg.ptr Cfg.a0 addr
        simp only [Nat.add_assoc]
      · unfold Cfg.ptr Cfg.a0 addr
        simp only [Nat.add_assoc]
  · cases h

theorem dl_malloc_same {a b : Nat} {h : Dl.St} {os : Bool} (n : Nat) : Dl.step a h os (.malloc n) = Dl.step b h os (.malloc n) := rfl

theorem dl_align_same {a b k : Nat} (hab : a % 2 ^ k = b % 2 ^ k) {h : Dl.St} {os : Bool} (n : Nat) : Dl.step a h os (.align k n) = Dl.step b h os (.align k n) := by
  simp only [Dl.step]
  rw [Dl.memalign_congr' hab (Nat.two_pow_pos _)]

/-! ## Pools -/

theorem alloc_twin {p q p' : MemPool.Pool} (hc : p.chunk = q.chunk) (hn : p.nchunks = q.nchunks) (hu : p.nused = q.nused) {sz : Nat} {x : Option Nat} (h : MemPool.alloc p sz = .ok (p', x)) :
    ∃ q' y, MemPool.alloc q sz = .ok (q', y) ∧ p'.nused = q'.nused ∧
      ((x = none ∧ y = none) ∨ ∃ d, x = some ((p.base + d) % 2 ^ 64) ∧ y = some ((q.base + d) % 2 ^ 64)) := by
  unfold MemPool.alloc at h ⊢
  have hna : MemPool.nallocOf p sz = MemPool.nallocOf q sz := by unfold MemPool.nallocOf; rw [hc]
  simp only [← hu, ← hn, ← hna, ← hc] at h ⊢
  cases hs : MemPool.scan p.nused p.nchunks (MemPool.nallocOf p sz) (p.nused.length + 1) 0 0 with
  | abort => rw [hs] at h; cases h
  | ub => rw [hs] at h; cases h
  | hang => rw [hs] at h; cases h
  | ok r =>
    rw [hs, Res.bind_ok] at h
    rw [Res.bind_ok]
    split at h
    · rename_i heq
      rw [if_pos heq]
      cases hw : MemPool.wr p.nused (r.1 - r.2) (toU32 (MemPool.nallocOf p sz)) with
      | abort => rw [hw] at h; cases h
      | ub => rw [hw] at h; cases h
      | hang => rw [hw] at h; cases h
      | ok u =>
        rw [hw, Res.bind_ok] at h
        rw [Res.bind_ok]
        injection h with h
        injection h with h1 h2
        subst h1
        exact ⟨_, _, rfl, rfl, .inr ⟨_, h2.symm, rfl⟩⟩
    · rename_i hne
      rw [if_neg hne]
      injection h with h
      injection h with h1 h2
      subst h1
      exact ⟨_, _, rfl, hu, .inl ⟨h2.symm, rfl⟩⟩

theorem free_twin {p q p' : MemPool.Pool} (hc : p.chunk = q.chunk) (hn : p.nchunks = q.nchunks) (hu : p.nused = q.nused) {d : Nat} (h : MemPool.free p (p.base + d) = .ok p') :
    ∃ q', MemPool.free q (q.base + d) = .ok q' ∧ p'.nused = q'.nused := by
  have ho : MemPool.offOf p (p.base + d) = MemPool.offOf q (q.base + d) := by
    unfold MemPool.offOf
    rw [hc, show ((p.base + d : Nat) : Int) - p.base = d by omega, show ((q.base + d : Nat) : Int) - q.base = d by omega]
  unfold MemPool.free at h ⊢
  simp only [← ho, ← hn, ← hu] at h ⊢
  split at h
  · rename_i hh
    rw [if_pos hh]
    cases hr : MemPool.rd p.nused (MemPool.offOf p (p.base + d)) with
    | abort => rw [hr] at h; cases h
    | ub => rw [hr] at h; cases h
    | hang => rw [hr] at h; cases h
    | ok v =>
      rw [hr, Res.bind_ok] at h
      rw [Res.bind_ok]
      split at h
      · rename_i hv
        rw [if_pos hv]
        cases hw : MemPool.wr p.nused (MemPool.offOf p (p.base + d)) 0 with
        | abort => rw [hw] at h; cases h
        | ub => rw [hw] at h; cases h
        | hang => rw [hw] at h; cases h
        | ok u =>
          rw [hw, Res.bind_ok] at h
          rw [Res.bind_ok]
          injection h with h
          subst h
          exact ⟨_, rfl, rfl⟩
      · cases h
  · cases h

/-- the pools of corresponding spaces differ in their base only -/
theorem pool_same {t₁ t₂ : Sp} (h₁ : SpOk C₁ t₁) (h₂ : SpOk C₂ t₂) (hk : C₁.k = C₂.k) (hs : t₁.size = t₂.size) (hu : t₁.pool.nused = t₂.pool.nused) :
    t₁.pool.chunk = t₂.pool.chunk ∧ t₁.pool.nchunks = t₂.pool.nchunks ∧ t₁.pool.base = t₁.base ∧ t₂.pool.base = t₂.base := by
  have I₁ := MemPool.hist_inv h₁.region h₁.hist
  have I₂ := MemPool.hist_inv h₂.region h₂.hist
  refine ⟨by rw [I₁.hchunk, I₂.hchunk, hk], ?_, I₁.hbase, I₂.hbase⟩
  rw [I₁.wf.nch, I₂.wf.nch, hu]

theorem find_handle {C : Cfg} {s : St} {l : List (Nat × Nat)} (i : Inv C s l) {j : Nat} {t : Sp} (h : s.spaces[j]? = some t) :
    handleAt s j = t.id ∧ s.spaces.find? (fun u => u.id = t.id) = some t := by
  refine ⟨by unfold handleAt; rw [h], find_id i (List.mem_of_getElem? h)⟩

theorem index_inj {C : Cfg} {s : St} {l : List (Nat × Nat)} (i : Inv C s l) {j k : Nat} {t u : Sp} (h : s.spaces[j]? = some t) (h' : s.spaces[k]? = some u) (he : t.id = u.id) : j = k := by
  obtain ⟨hj, rfl⟩ := List.getElem?_eq_some_iff.1 h
  obtain ⟨hk, rfl⟩ := List.getElem?_eq_some_iff.1 h'
  have hn := i.ids
  have := (List.Nodup.getElem_inj_iff hn (i := j) (j := k) (hi := by simpa using hj) (hj := by simpa using hk)).1 (by simpa using he)
  exact this

/-- the pools of space number `j` are replaced -/
theorem Same.setPool {s₁ s₂ : St} {l₁ l₂ : List (Nat × Nat)} (i₁ : Inv C₁ s₁ l₁) (i₂ : Inv C₂ s₂ l₂) (S : Same s₁ s₂) {j : Nat} {t₁ t₂ : Sp} (h₁ : s₁.spaces[j]? = some t₁) (h₂ : s₂.spaces[j]? = some t₂)
    {p₁ p₂ : MemPool.Pool} (hp : p₁.nused = p₂.nused) (v₁ v₂ : List (Nat × Nat)) :
    Same { s₁ with spaces := Mm.setPool s₁.spaces t₁.id p₁ v₁ } { s₂ with spaces := Mm.setPool s₂.spaces t₂.id p₂ v₂ } := by
  refine ⟨S.heap, by simp only [Mm.setPool, List.length_map]; exact S.len, ?_⟩
  intro k u₁ u₂ g₁ g₂
  simp only [Mm.setPool, List.getElem?_map, Option.map_eq_some_iff] at g₁ g₂
  obtain ⟨w₁, a₁, rfl⟩ := g₁
  obtain ⟨w₂, a₂, rfl⟩ := g₂
  have hs := S.sp a₁ a₂
  by_cases hkj : k = j
  · subst hkj
    have e₁ : w₁ = t₁ := by rw [a₁] at h₁; injection h₁
    have e₂ : w₂ = t₂ := by rw [a₂] at h₂; injection h₂
    subst e₁
    subst e₂
    rw [if_pos rfl, if_pos rfl]
    exact ⟨hs.1, hp⟩
  · rw [if_neg (fun he => hkj (index_inj i₁ a₁ h₁ he)), if_neg (fun he => hkj (index_inj i₂ a₂ h₂ he))]
    exact hs

theorem setPool_at {s : St} {j : Nat} {t : Sp} (h : s.spaces[j]? = some t) (p : MemPool.Pool) (v : List (Nat × Nat)) :
    (Mm.setPool s.spaces t.id p v)[j]? = some { t with pool := p, live := v } := by
  simp only [Mm.setPool, List.getElem?_map, h, Option.map_some, if_true]

/-- a pointer from a pool is in its space -/
theorem alloc_off {C : Cfg} {t : Sp} (h : SpOk C t) {sz : Nat} (hv : MemPool.Valid (2 ^ C.k) sz) {p' : MemPool.Pool} {x : Nat} (e : MemPool.alloc t.pool sz = .ok (p', some x)) :
    ∃ d, x = t.base + d ∧ d < t.size := by
  have hh : MemPool.Hist t.base t.size (2 ^ C.k) p' ((x, sz) :: t.live) := .alloc h.hist hv e
  have := (MemPool.C06_disjoint_in_bounds h.region hh).1 (x, sz) (List.mem_cons_self ..)
  have h1 := hv.1
  exact ⟨x - t.base, by simp only at this; omega, by simp only at this; omega⟩

theorem spaceMalloc_same (o₁ : C₁.Ok) (o₂ : C₂.Ok) (hk : C₁.k = C₂.k) {s₁ s₂ s₁' : St} {l₁ l₂ : List (Nat × Nat)} (i₁ : Inv C₁ s₁ l₁) (i₂ : Inv C₂ s₂ l₂) (S : Same s₁ s₂) {j : Nat}
    (hj : j < s₁.spaces.length) {sz : Nat} (hv : MemPool.Valid (2 ^ C₁.k) sz) {r₁ : Ret} (h : spaceMalloc s₁ (handleAt s₁ j) sz = .ok (s₁', r₁)) :
    ∃ s₂' r₂, spaceMalloc s₂ (handleAt s₂ j) sz = .ok (s₂', r₂) ∧ Same s₁' s₂' ∧ r₁.barriers = r₂.barriers ∧ SamePtr C₁ C₂ s₁' s₂' r₁.ptr r₂.ptr := by
  have h₁ : s₁.spaces[j]? = some s₁.spaces[j] := List.getElem?_eq_getElem hj
  generalize s₁.spaces[j] = t₁ at h₁
  obtain ⟨t₂, h₂, hsz, hus⟩ := S.find h₁
  obtain ⟨a₁, b₁⟩ := find_handle i₁ h₁
  obtain ⟨a₂, b₂⟩ := find_handle i₂ h₂
  have k₁ := i₁.sp t₁ (List.mem_of_getElem? h₁)
  have k₂ := i₂.sp t₂ (List.mem_of_getElem? h₂)
  obtain ⟨hc, hn, hb₁, hb₂⟩ := pool_same k₁ k₂ hk hsz hus
  rw [a₁] at h
  unfold spaceMalloc at h ⊢
  rw [a₂]
  rw [b₁] at h
  rw [b₂]
  simp only at h ⊢
  cases ha : MemPool.alloc t₁.pool sz with
  | abort => rw [ha] at h; cases h
  | ub => rw [ha] at h; cases h
  | hang => rw [ha] at h; cases h
  | ok y =>
    obtain ⟨p', x⟩ := y
    obtain ⟨q', y, h3, h4, h5⟩ := alloc_twin hc hn hus ha
    rw [ha, Res.bind_ok] at h
    rw [h3, Res.bind_ok]
    rcases h5 with ⟨rfl, rfl⟩ | ⟨d, rfl, rfl⟩
    · simp only at h ⊢
      injection h with h
      injection h with e1 e2
      subst e1
      subst e2
      exact ⟨_, _, rfl, S.setPool i₁ i₂ h₁ h₂ h4 _ _, rfl, .inl ⟨rfl, rfl⟩⟩
    · simp only at h ⊢
      injection h with h
      injection h with e1 e2
      subst e1
      subst e2
      refine ⟨_, _, rfl, S.setPool i₁ i₂ h₁ h₂ h4 _ _, rfl, .inr (.inr ?_)⟩
      obtain ⟨d₁, f₁, g₁⟩ := alloc_off k₁ hv ha
      obtain ⟨d₂, f₂, g₂⟩ := alloc_off k₂ (by rw [← hk]; exact hv) h3
      have t₁' := k₁.top
      have t₂' := k₂.top
      have hd : d₁ = d₂ := by rw [hb₁] at f₁; rw [hb₂] at f₂; omega
      subst hd
      refine ⟨.space j d₁, (fun h => by cases h), ⟨_, setPool_at h₁ _ _, g₁⟩, ⟨_, setPool_at h₂ _ _, g₂⟩, ?_, ?_⟩
      · unfold addr
        simp only [setPool_at h₁]
        rw [f₁]
      · unfold addr
        simp only [setPool_at h₂]
        rw [f₂]

/-! ## The other calls -/

theorem block_same {s₁ s₂ : St} (S : Same s₁ s₂) (d : Nat) : C₁.block s₁ (C₁.base + d) = C₂.block s₂ (C₂.base + d) := by
  unfold Cfg.block Cfg.a0
  rw [← S.heap, show C₁.base + d - (C₁.base + 960) = d - 960 by omega, show C₂.base + d - (C₂.base + 960) = d - 960 by omega]
  by_cases h : 960 ≤ d ∧ (s₁.heap.live.lookup (d - 960)).isSome = true
  · rw [if_pos ⟨by omega, h.2⟩, if_pos ⟨by omega, h.2⟩]
  · rw [if_neg (fun x => h ⟨by omega, x.2⟩), if_neg (fun x => h ⟨by omega, x.2⟩)]

theorem free_same (o₁ : C₁.Ok) (o₂ : C₂.Ok) (hk : C₁.k = C₂.k) (hS : C₁.S = C₂.S) {s₁ s₂ s₁' : St} {l₁ l₂ : List (Nat × Nat)} (i₁ : Inv C₁ s₁ l₁) (i₂ : Inv C₂ s₂ l₂) (S : Same s₁ s₂)
    {e₁ e₂ : Env} (he : e₁.os = e₂.os) {p : Loc} (hp : Inside C₁ s₁ p) {r₁ : Ret} (h : free C₁ s₁ e₁ (addr C₁ s₁ p) = .ok (s₁', r₁)) :
    ∃ s₂' r₂, free C₂ s₂ e₂ (addr C₂ s₂ p) = .ok (s₂', r₂) ∧ Same s₁' s₂' ∧ r₁.barriers = r₂.barriers ∧ SamePtr C₁ C₂ s₁' s₂' r₁.ptr r₂.ptr := by
  have none_ : ∀ {a b : Nat}, a < 2 ^ 63 → b < 2 ^ 63 → accepted C₁.base C₁.k C₁.S a = false → accepted C₂.base C₂.k C₂.S b = false → (∀ t ∈ s₁.spaces, ¬(t.base ≤ a ∧ a < t.base + t.size)) →
      (∀ t ∈ s₂.spaces, ¬(t.base ≤ b ∧ b < t.base + t.size)) → free C₁ s₁ e₁ a = .ok (s₁', r₁) →
      ∃ s₂' r₂, free C₂ s₂ e₂ b = .ok (s₂', r₂) ∧ Same s₁' s₂' ∧ r₁.barriers = r₂.barriers ∧ SamePtr C₁ C₂ s₁' s₂' r₁.ptr r₂.ptr := by
    intro a b ha hb ha' hb' hsa hsb hf
    rw [free_none i₁ e₁ ha ha' hsa] at hf
    injection hf with hf
    injection hf with e1 e2
    subst e1
    subst e2
    exact ⟨_, _, free_none i₂ e₂ hb hb' hsb, S, rfl, .inl ⟨rfl, rfl⟩⟩
  have q₁ := Ok.lt o₁
  have q₂ := Ok.lt o₂
  cases p with
  | null =>
    have z₁ := o₁.2
    have z₂ := o₂.2
    exact none_ (a := 0) (b := 0) (by omega) (by omega) (not_accepted o₁ (by omega) (by omega)) (not_accepted o₂ (by omega) (by omega)) (fun t ht => by have := (i₁.sp t ht).pos; omega)
      (fun t ht => by have := (i₂.sp t ht).pos; omega) h
  | heap d =>
    have hd : d < trueSize C₁.k C₁.S := hp
    have hd' : d < trueSize C₂.k C₂.S := by rw [← hk, ← hS]; exact hd
    have hacc : accepted C₁.base C₁.k C₁.S (C₁.base + d) = accepted C₂.base C₂.k C₂.S (C₂.base + d) := by
      rw [Bool.eq_iff_iff, Heap.accepted_iff o₁.1 (by omega), Heap.accepted_iff o₂.1 (by omega), hk, hS]
      omega
    simp only [addr] at h ⊢
    cases ha : accepted C₁.base C₁.k C₁.S (C₁.base + d) with
    | true =>
      unfold free at h ⊢
      rw [← hacc, if_pos ha]
      rw [if_pos ha] at h
      rw [← block_same (C₁ := C₁) S d, ← S.heap, ← he]
      split at h
      · rename_i off hoff
        rw [show Dl.step C₂.a0 s₁.heap e₁.os (.free off) = Dl.step C₁.a0 s₁.heap e₁.os (.free off) from rfl]
        split at h
        · rename_i hp u hstep
          injection h with h
          injection h with e1 e2
          subst e1
          subst e2
          exact ⟨_, _, rfl, S.mk_heap hp, rfl, .inl ⟨rfl, rfl⟩⟩
        · cases h
      · cases h
    | false =>
      refine none_ (by omega) (by omega) ha (by rw [← hacc]; exact ha) (fun t ht => ?_) (fun t ht => ?_) h
      · have := i₁.heapApart t ht; unfold Apart at this; omega
      · have := i₂.heapApart t ht; unfold Apart at this; omega
  | space j d =>
    obtain ⟨t₁, h₁, hd⟩ := hp
    obtain ⟨t₂, h₂, hsz, hus⟩ := S.find h₁
    have m₁ := List.mem_of_getElem? h₁
    have m₂ := List.mem_of_getElem? h₂
    have k₁ := i₁.sp t₁ m₁
    have k₂ := i₂.sp t₂ m₂
    obtain ⟨hc, hn, hb₁, hb₂⟩ := pool_same k₁ k₂ hk hsz hus
    have a₁ := i₁.heapApart t₁ m₁
    have a₂ := i₂.heapApart t₂ m₂
    unfold Apart at a₁ a₂
    have u₁ := k₁.top
    have u₂ := k₂.top
    simp only [addr, h₁, h₂] at h ⊢
    unfold free at h ⊢
    rw [if_neg (by rw [not_accepted o₁ (by omega) (by omega)]; decide), find_space i₁ m₁ (by omega) (by omega)] at h
    rw [if_neg (by rw [not_accepted o₂ (by omega) (by omega)]; decide), find_space i₂ m₂ (by omega) (by omega)]
    simp only [spaceFree] at h ⊢
    cases hf : MemPool.free t₁.pool (t₁.base + d) with
    | abort => rw [hf] at h; cases h
    | ub => rw [hf] at h; cases h
    | hang => rw [hf] at h; cases h
    | ok p' =>
      rw [← hb₁] at hf
      obtain ⟨q', hq, hu'⟩ := free_twin hc hn hus hf
      rw [hb₁] at hf
      rw [hb₂] at hq
      rw [hf, Res.bind_ok, Res.bind_ok] at h
      rw [hq, Res.bind_ok, Res.bind_ok]
      injection h with h
      injection h with e1 e2
      subst e1
      subst e2
      exact ⟨_, _, rfl, S.setPool i₁ i₂ h₁ h₂ hu' _ _, rfl, .inl ⟨rfl, rfl⟩⟩

theorem realloc_same (o₁ : C₁.Ok) (o₂ : C₂.Ok) (hk : C₁.k = C₂.k) (hS : C₁.S = C₂.S) {s₁ s₂ s₁' : St} {l₁ l₂ : List (Nat × Nat)} (i₁ : Inv C₁ s₁ l₁) (i₂ : Inv C₂ s₂ l₂) (S : Same s₁ s₂)
    {e₁ e₂ : Env} (he : e₁.os = e₂.os) {p : Loc} (hp : Inside C₁ s₁ p) {n : Nat} {r₁ : Ret} (h : realloc C₁ s₁ e₁ (addr C₁ s₁ p) n = .ok (s₁', r₁)) :
    ∃ s₂' r₂, realloc C₂ s₂ e₂ (addr C₂ s₂ p) n = .ok (s₂', r₂) ∧ Same s₁' s₂' ∧ r₁.barriers = r₂.barriers ∧ SamePtr C₁ C₂ s₁' s₂' r₁.ptr r₂.ptr := by
  have z₁ := o₁.2
  have z₂ := o₂.2
  cases p with
  | null =>
    simp only [addr] at h ⊢
    unfold realloc at h ⊢
    by_cases hn : n = 0
    · rw [if_pos ⟨hn, rfl⟩] at h ⊢
      injection h with h
      injection h with e1 e2
      subst e1
      subst e2
      exact ⟨_, _, rfl, S, rfl, .inl ⟨rfl, rfl⟩⟩
    · rw [if_neg (fun x => hn x.1), if_pos rfl] at h ⊢
      exact heapCall_same o₁ hk hS i₁ S he (dl_malloc_same n) h
  | heap d =>
    simp only [addr] at h ⊢
    unfold realloc at h ⊢
    rw [if_neg (by omega), if_neg (by omega)] at h ⊢
    split at h
    · rename_i hm
      rw [if_pos hm]
      injection h with h
      injection h with e1 e2
      subst e1
      subst e2
      exact ⟨_, _, rfl, S, rfl, .inl ⟨rfl, rfl⟩⟩
    · rename_i hm
      rw [if_neg hm, ← block_same (C₁ := C₁) S d]
      split at h
      · exact heapCall_same o₁ hk hS i₁ S he rfl h
      · rcases foreign_not (C := C₁) (e := e₁) (p := C₁.base + d) with hf | hf <;> rw [hf] at h <;> cases h
  | space j d =>
    obtain ⟨t₁, h₁, hd⟩ := hp
    obtain ⟨t₂, h₂, hsz, hus⟩ := S.find h₁
    have m₁ := List.mem_of_getElem? h₁
    have m₂ := List.mem_of_getElem? h₂
    have k₁ := i₁.sp t₁ m₁
    have k₂ := i₂.sp t₂ m₂
    have a₁ := i₁.heapApart t₁ m₁
    unfold Apart at a₁
    have p₁ := k₁.pos
    have p₂ := k₂.pos
    simp only [addr, h₁, h₂] at h ⊢
    unfold realloc at h ⊢
    rw [if_neg (by omega), if_neg (by omega)] at h ⊢
    split at h
    · rename_i hm
      rw [if_pos hm]
      injection h with h
      injection h with e1 e2
      subst e1
      subst e2
      exact ⟨_, _, rfl, S, rfl, .inl ⟨rfl, rfl⟩⟩
    · rw [block_none o₁ i₁ (by omega)] at h
      rcases foreign_not (C := C₁) (e := e₁) (p := t₁.base + d) with hf | hf <;> simp only [hf] at h <;> cases h

theorem align_same (o₁ : C₁.Ok) (hk : C₁.k = C₂.k) (hS : C₁.S = C₂.S) {s₁ s₂ s₁' : St} {l₁ : List (Nat × Nat)} (i₁ : Inv C₁ s₁ l₁) (S : Same s₁ s₂)
    {e₁ e₂ : Env} (he : e₁.os = e₂.os) {a n : Nat} (ha : a ≤ 2 ^ 63) (hal : Alike C₁ C₂ a) {r₁ : Ret} (h : align C₁ s₁ e₁ a n = .ok (s₁', r₁)) :
    ∃ s₂' r₂, align C₂ s₂ e₂ a n = .ok (s₂', r₂) ∧ Same s₁' s₂' ∧ r₁.barriers = r₂.barriers ∧ SamePtr C₁ C₂ s₁' s₂' r₁.ptr r₂.ptr := by
  unfold align at h ⊢
  by_cases h16 : a ≤ 16
  · rw [if_pos h16] at h ⊢
    exact heapCall_same o₁ hk hS i₁ S he (dl_malloc_same n) h
  · rw [if_neg h16] at h ⊢
    obtain ⟨m, h1, _, h3, h4, h5⟩ := roundAl_ok ha
    rw [h3, Res.bind_ok] at h ⊢
    refine heapCall_same o₁ hk hS i₁ S he ?_ h
    rw [Nat.log2_two_pow]
    apply dl_align_same
    have hlt : 2 ^ m < 2 * a := by
      by_cases hm : m = 5
      · subst hm; omega
      · have : ¬a ≤ 2 ^ (m - 1) := fun hc => by have := h5 (m - 1) (by omega) hc; omega
        have e : 2 ^ m = 2 * 2 ^ (m - 1) := by rw [← Nat.pow_succ', show (m - 1).succ = m by omega]
        omega
    have := hal m hlt
    unfold Cfg.a0
    rw [Nat.add_mod, this, ← Nat.add_mod]

theorem create_same (o₁ : C₁.Ok) (o₂ : C₂.Ok) (hk : C₁.k = C₂.k) {s₁ s₂ s₁' : St} {l₁ l₂ : List (Nat × Nat)} (i₁ : Inv C₁ s₁ l₁) (i₂ : Inv C₂ s₂ l₂) (S : Same s₁ s₂)
    {e₁ e₂ : Env} {n : Nat} (hl₁ : Legal C₁ s₁ l₁ e₁ (.shmemx_space_create n)) (hl₂ : Legal C₂ s₂ l₂ e₂ (.shmemx_space_create n)) {r₁ : Ret} (h : create C₁ s₁ e₁ n = .ok (s₁', r₁)) :
    ∃ s₂' r₂, create C₂ s₂ e₂ n = .ok (s₂', r₂) ∧ Same s₁' s₂' ∧ r₁.barriers = r₂.barriers ∧
      r₁.ptr = .at_ (handleAt s₁' s₁.spaces.length) ∧ r₂.ptr = .at_ (handleAt s₂' s₁.spaces.length) := by
  have hk₁ := o₁.1.page'
  have hk₂ := o₂.1.page'
  have hss : C₁.spaceSize n = C₂.spaceSize n := by unfold Cfg.spaceSize; rw [hk]
  have b₁ := hl₁.2.1.2.1
  have b₂ := hl₂.2.1.2.1
  obtain ⟨p₁, q₁, _, _, _, v₁⟩ := MemPool.init_wf (base := e₁.mem) (size := C₁.spaceSize n) (k := C₁.k) (by omega) rfl hl₁.2.2.2 (by omega)
  obtain ⟨p₂, q₂, _, _, _, v₂⟩ := MemPool.init_wf (base := e₂.mem) (size := C₂.spaceSize n) (k := C₂.k) (by omega) rfl hl₂.2.2.2 (by omega)
  have hn := hl₁.1
  unfold create at h ⊢
  rw [if_neg (by omega)] at h ⊢
  rw [q₁, Res.bind_ok] at h
  rw [q₂, Res.bind_ok]
  injection h with h
  injection h with e1 e2
  subst e1
  subst e2
  refine ⟨_, _, rfl, ⟨S.heap, by simp only [List.length_append, List.length_singleton, S.len], ?_⟩, rfl, ?_, ?_⟩
  · intro j t₁ t₂ g₁ g₂
    simp only at g₁ g₂
    by_cases hj : j < s₁.spaces.length
    · rw [List.getElem?_append_left hj] at g₁
      rw [List.getElem?_append_left (by rw [← S.len]; exact hj)] at g₂
      exact S.sp g₁ g₂
    · rw [List.getElem?_append_right (by omega)] at g₁
      rw [List.getElem?_append_right (by rw [← S.len]; omega)] at g₂
      by_cases hj' : j = s₁.spaces.length
      · have z : j - s₁.spaces.length = 0 := by omega
        have z' : j - s₂.spaces.length = 0 := by rw [← S.len]; omega
        rw [z] at g₁
        rw [z'] at g₂
        injection g₁ with g₁
        injection g₂ with g₂
        subst g₁
        subst g₂
        refine ⟨hss, ?_⟩
        show p₁.nused = p₂.nused
        rw [MemPool.init] at q₁ q₂
        rw [if_neg (by have := Nat.two_pow_pos C₁.k; omega)] at q₁
        rw [if_neg (by have := Nat.two_pow_pos C₂.k; omega)] at q₂
        simp only at q₁ q₂
        rw [hss, hk] at q₁
        split at q₁
        · cases q₁
        · rename_i hneg
          rw [if_neg hneg] at q₂
          injection q₁ with q₁
          injection q₂ with q₂
          rw [← q₁, ← q₂]
      · rw [List.getElem?_eq_none (by simp only [List.length_singleton]; omega)] at g₁
        cases g₁
  · unfold handleAt
    simp only [List.getElem?_concat_length]
  · unfold handleAt
    rw [S.len]
    simp only [List.getElem?_concat_length]

/-- removing the only space with a handle -/
theorem filter_eraseIdx {l : List Sp} (hn : (l.map Sp.id).Nodup) {j : Nat} {t : Sp} (h : l[j]? = some t) : l.filter (fun u => decide (u.id ≠ t.id)) = l.eraseIdx j := by
  induction l generalizing j with
  | nil => cases h
  | cons u l ih =>
    rw [List.map_cons, List.nodup_cons] at hn
    cases j with
    | zero =>
      injection h with h
      subst h
      rw [List.filter_cons_of_neg (by simp), List.eraseIdx_cons_zero, List.filter_eq_self]
      intro v hv
      rw [decide_eq_true_eq]
      intro he
      exact hn.1 (List.mem_map.2 ⟨v, hv, he⟩)
    | succ j =>
      have h' : l[j]? = some t := h
      have hne : u.id ≠ t.id := fun he => hn.1 (List.mem_map.2 ⟨t, List.mem_of_getElem? h', he.symm⟩)
      rw [List.filter_cons_of_pos (by rw [decide_eq_true_eq]; exact hne), List.eraseIdx_cons_succ, ih hn.2 h']

theorem destroy_same (hk : C₁.k = C₂.k) {s₁ s₂ s₁' : St} {l₁ l₂ : List (Nat × Nat)} (i₁ : Inv C₁ s₁ l₁) (i₂ : Inv C₂ s₂ l₂) (S : Same s₁ s₂) {j : Nat}
    (hj : j < s₁.spaces.length) {r₁ : Ret} (h : destroy s₁ (handleAt s₁ j) = .ok (s₁', r₁)) :
    ∃ s₂' r₂, destroy s₂ (handleAt s₂ j) = .ok (s₂', r₂) ∧ Same s₁' s₂' ∧ r₁.barriers = r₂.barriers ∧ SamePtr C₁ C₂ s₁' s₂' r₁.ptr r₂.ptr := by
  have h₁ : s₁.spaces[j]? = some s₁.spaces[j] := List.getElem?_eq_getElem hj
  generalize s₁.spaces[j] = t₁ at h₁
  obtain ⟨t₂, h₂, hsz, hus⟩ := S.find h₁
  obtain ⟨a₁, b₁⟩ := find_handle i₁ h₁
  obtain ⟨a₂, b₂⟩ := find_handle i₂ h₂
  rw [a₁] at h
  unfold destroy at h ⊢
  rw [a₂]
  rw [b₁] at h
  rw [b₂]
  simp only at h ⊢
  have hd : MemPool.destroy t₁.pool = MemPool.destroy t₂.pool := by unfold MemPool.destroy; rw [hus]
  rw [← hd]
  cases ha : MemPool.destroy t₁.pool with
  | abort => rw [ha] at h; cases h
  | ub => rw [ha] at h; cases h
  | hang => rw [ha] at h; cases h
  | ok y =>
    rw [ha, Res.bind_ok] at h
    rw [Res.bind_ok]
    injection h with h
    injection h with e1 e2
    subst e1
    subst e2
    refine ⟨_, _, rfl, ⟨S.heap, ?_, ?_⟩, rfl, .inl ⟨rfl, rfl⟩⟩
    · simp only [filter_eraseIdx i₁.ids h₁, filter_eraseIdx i₂.ids h₂, List.length_eraseIdx, S.len]
    · intro k u₁ u₂ g₁ g₂
      simp only [filter_eraseIdx i₁.ids h₁, filter_eraseIdx i₂.ids h₂, List.getElem?_eraseIdx] at g₁ g₂
      split at g₁
      · rename_i hlt
        rw [if_pos hlt] at g₂
        exact S.sp g₁ g₂
      · rename_i hlt
        rw [if_neg hlt] at g₂
        exact S.sp g₁ g₂

/-- the results of a symmetric call on two PEs are the same: for a new space its handle, otherwise the pointer -/
def SameRet (C₁ C₂ : Cfg) (s₁ s₁' s₂' : St) (r₁ r₂ : Ret) : SymCall → Prop
  | .shmem_malloc _ => SamePtr C₁ C₂ s₁' s₂' r₁.ptr r₂.ptr
  | .shmem_malloc_with_hints _ _ => SamePtr C₁ C₂ s₁' s₂' r₁.ptr r₂.ptr
  | .shmem_calloc _ _ => SamePtr C₁ C₂ s₁' s₂' r₁.ptr r₂.ptr
  | .shmem_align _ _ => SamePtr C₁ C₂ s₁' s₂' r₁.ptr r₂.ptr
  | .shmem_realloc _ _ => SamePtr C₁ C₂ s₁' s₂' r₁.ptr r₂.ptr
  | .shmem_free _ => SamePtr C₁ C₂ s₁' s₂' r₁.ptr r₂.ptr
  | .shmalloc _ => SamePtr C₁ C₂ s₁' s₂' r₁.ptr r₂.ptr
  | .shmemalign _ _ => SamePtr C₁ C₂ s₁' s₂' r₁.ptr r₂.ptr
  | .shrealloc _ _ => SamePtr C₁ C₂ s₁' s₂' r₁.ptr r₂.ptr
  | .shfree _ => SamePtr C₁ C₂ s₁' s₂' r₁.ptr r₂.ptr
  | .shmemx_space_create _ => r₁.ptr = .at_ (handleAt s₁' s₁.spaces.length) ∧ r₂.ptr = .at_ (handleAt s₂' s₁.spaces.length)
  | .shmemx_space_destroy _ => SamePtr C₁ C₂ s₁' s₂' r₁.ptr r₂.ptr
  | .shmemx_space_malloc _ _ => SamePtr C₁ C₂ s₁' s₂' r₁.ptr r₂.ptr
  | .shmemx_space_calloc _ _ _ => SamePtr C₁ C₂ s₁' s₂' r₁.ptr r₂.ptr
  | .shmemx_space_align _ _ _ => SamePtr C₁ C₂ s₁' s₂' r₁.ptr r₂.ptr

theorem same_step (o₁ : C₁.Ok) (o₂ : C₂.Ok) (hk : C₁.k = C₂.k) (hS : C₁.S = C₂.S) {s₁ s₂ s₁' : St} {l₁ l₂ : List (Nat × Nat)} (i₁ : Inv C₁ s₁ l₁) (i₂ : Inv C₂ s₂ l₂) (S : Same s₁ s₂)
    {e₁ e₂ : Env} {c : SymCall} {r₁ : Ret} (hargs : Args C₁ s₁ c) (hal : AlikeFor C₁ C₂ c) (he : e₁.os = e₂.os) (hl₁ : Legal C₁ s₁ l₁ e₁ (on C₁ s₁ c)) (hl₂ : Legal C₂ s₂ l₂ e₂ (on C₂ s₂ c))
    (h : step C₁ s₁ e₁ (on C₁ s₁ c) = .ok (s₁', r₁)) :
    ∃ s₂' r₂, step C₂ s₂ e₂ (on C₂ s₂ c) = .ok (s₂', r₂) ∧ Same s₁' s₂' ∧ r₁.barriers = r₂.barriers ∧ SameRet C₁ C₂ s₁ s₁' s₂' r₁ r₂ c := by
  have fin : ∀ {f : Res (St × Ret)} {g : Res (St × Ret)}, f = .ok (s₁', r₁) → f = .ok (s₁, ⟨.null, 0⟩) → g = .ok (s₂, ⟨.null, 0⟩) →
      ∃ s₂' r₂, g = .ok (s₂', r₂) ∧ Same s₁' s₂' ∧ r₁.barriers = r₂.barriers ∧ SamePtr C₁ C₂ s₁' s₂' r₁.ptr r₂.ptr := by
    intro f g h1 h2 h3
    rw [h1] at h2
    injection h2 with h2
    injection h2 with e1 e2
    subst e1
    subst e2
    exact ⟨_, _, h3, S, rfl, .inl ⟨rfl, rfl⟩⟩
  have mal : ∀ n, malloc C₁ s₁ e₁ n = .ok (s₁', r₁) → ∃ s₂' r₂, malloc C₂ s₂ e₂ n = .ok (s₂', r₂) ∧ Same s₁' s₂' ∧ r₁.barriers = r₂.barriers ∧ SamePtr C₁ C₂ s₁' s₂' r₁.ptr r₂.ptr := by
    intro n hm
    by_cases hn : n = 0
    · exact fin hm (by unfold malloc; rw [if_pos hn]) (by unfold malloc; rw [if_pos hn])
    · unfold malloc at hm ⊢
      rw [if_neg hn] at hm ⊢
      exact heapCall_same o₁ hk hS i₁ S he (dl_malloc_same n) hm
  cases c with
  | shmem_malloc n => exact mal n h
  | shmem_malloc_with_hints n hints => exact mal n h
  | shmem_calloc c n =>
    have h' : shmem_calloc C₁ s₁ e₁ c n = .ok (s₁', r₁) := h
    show ∃ s₂' r₂, shmem_calloc C₂ s₂ e₂ c n = .ok (s₂', r₂) ∧ _
    by_cases hz : c = 0 ∨ n = 0
    · exact fin h' (by unfold shmem_calloc; rw [if_pos hz]) (by unfold shmem_calloc; rw [if_pos hz])
    · have hz' : ¬n = 0 := fun x => hz (.inr x)
      unfold shmem_calloc calloc at h' ⊢
      rw [if_neg hz, if_neg hz'] at h' ⊢
      exact heapCall_same o₁ hk hS i₁ S he rfl h'
  | shmem_align a n => exact align_same o₁ hk hS i₁ S he hl₁.2 hal h
  | shmem_realloc p n => exact realloc_same o₁ o₂ hk hS i₁ i₂ S he hargs h
  | shmem_free p => exact free_same o₁ o₂ hk hS i₁ i₂ S he hargs h
  | shmalloc n => exact mal n h
  | shmemalign a n => exact align_same o₁ hk hS i₁ S he hl₁.2 hal h
  | shrealloc p n => exact realloc_same o₁ o₂ hk hS i₁ i₂ S he hargs h
  | shfree p => exact free_same o₁ o₂ hk hS i₁ i₂ S he hargs h
  | shmemx_space_create n => exact create_same o₁ o₂ hk i₁ i₂ S hl₁ hl₂ h
  | shmemx_space_destroy t => exact destroy_same hk i₁ i₂ S hargs h
  | shmemx_space_malloc t n => exact spaceMalloc_same o₁ o₂ hk i₁ i₂ S hargs hl₁.2 h
  | shmemx_space_calloc t c n =>
    have h' : space_calloc s₁ (handleAt s₁ t) c n = .ok (s₁', r₁) := h
    show ∃ s₂' r₂, space_calloc s₂ (handleAt s₂ t) c n = .ok (s₂', r₂) ∧ _
    unfold space_calloc at h' ⊢
    cases hs : spaceMalloc s₁ (handleAt s₁ t) n with
    | abort => rw [hs] at h'; cases h'
    | ub => rw [hs] at h'; cases h'
    | hang => rw [hs] at h'; cases h'
    | ok y =>
      obtain ⟨y, r⟩ := y
      rw [hs, Res.bind_ok] at h'
      obtain ⟨s₂', r₂, g1, g2, g3, g4⟩ := spaceMalloc_same o₁ o₂ hk i₁ i₂ S hargs hl₁.2.1 hs
      rw [g1, Res.bind_ok]
      split at h'
      · cases h'
      · rename_i hne
        injection h' with h'
        injection h' with e1 e2
        subst e1
        subst e2
        have : ¬r₂.ptr = .null := by
          rcases g4 with ⟨a, _⟩ | ⟨_, a⟩ | ⟨l, _, _, _, _, a⟩
          · exact absurd a hne
          · rw [a]; exact fun h => by cases h
          · rw [a]; exact fun h => by cases h
        rw [if_neg this]
        exact ⟨_, _, rfl, g2, g3, g4⟩
  | shmemx_space_align t a n => exact spaceMalloc_same o₁ o₂ hk i₁ i₂ S hargs hl₁.2.1 h

theorem twin_hist {s₁ s₂ : St} {l₁ l₂ : List (Nat × Nat)} (t : Twin C₁ C₂ s₁ l₁ s₂ l₂) : Hist C₁ s₁ l₁ ∧ Hist C₂ s₂ l₂ := by
  induction t with
  | init h1 h2 => exact ⟨.init h1, .init h2⟩
  | call _ _ _ _ hl₁ hl₂ h₁ h₂ ih => exact ⟨.call ih.1 hl₁ h₁, .call ih.2 hl₂ h₂⟩

theorem twin_same (o₁ : C₁.Ok) (o₂ : C₂.Ok) (hk : C₁.k = C₂.k) (hS : C₁.S = C₂.S) {s₁ s₂ : St} {l₁ l₂ : List (Nat × Nat)} (t : Twin C₁ C₂ s₁ l₁ s₂ l₂) : Same s₁ s₂ := by
  induction t with
  | init h1 h2 =>
    rw [hk, hS, h2] at h1
    injection h1 with h1
    subst h1
    exact ⟨rfl, rfl, fun h => by cases h⟩
  | call t hargs hal he hl₁ hl₂ h₁ h₂ ih =>
    obtain ⟨a, b⟩ := twin_hist t
    obtain ⟨_, _, g1, g2, _⟩ := same_step o₁ o₂ hk hS (hist_inv o₁ a) (hist_inv o₂ b) ih hargs hal he hl₁ hl₂ h₁
    rw [h₂] at g1
    injection g1 with g1
    injection g1 with g1 _
    rw [g1]
    exact g2

/-- **C98 (symmetry, partial).** PEs that make the same calls get the same symmetric locations. Two PEs, with heaps of the same size, made the same calls, each with its own addresses of the
same symmetric locations and its own handles of the same spaces, by whatever names; the surroundings put the memory of the spaces anywhere on either PE. Then the next call, if it returns on one PE,
returns on the other too, after as many barriers, and gives both the same thing: NULL, the same location of the heap or of the same space, or the handle of the same new space.
Missing: `shmem_align` if the heaps are not congruent modulo the alignment (`Alike`; false then, `C98_symmetric_fails`), and when the system gives memory to one PE only. -/
theorem C98_symmetric_partial (o₁ : C₁.Ok) (o₂ : C₂.Ok) (hk : C₁.k = C₂.k) (hS : C₁.S = C₂.S) {s₁ s₂ : St} {l₁ l₂ : List (Nat × Nat)} (t : Twin C₁ C₂ s₁ l₁ s₂ l₂) {e₁ e₂ : Env} {c : SymCall} {r₁ : Ret} {s₁' : St}
    (hargs : Args C₁ s₁ c) (hal : AlikeFor C₁ C₂ c) (he : e₁.os = e₂.os) (hl₁ : Legal C₁ s₁ l₁ e₁ (on C₁ s₁ c)) (hl₂ : Legal C₂ s₂ l₂ e₂ (on C₂ s₂ c)) (h : step C₁ s₁ e₁ (on C₁ s₁ c) = .ok (s₁', r₁)) :
    ∃ s₂' r₂, step C₂ s₂ e₂ (on C₂ s₂ c) = .ok (s₂', r₂) ∧ r₁.barriers = r₂.barriers ∧ SameRet C₁ C₂ s₁ s₁' s₂' r₁ r₂ c ∧
      Twin C₁ C₂ s₁' (after l₁ r₁ (on C₁ s₁ c)) s₂' (after l₂ r₂ (on C₂ s₂ c)) := by
  obtain ⟨a, b⟩ := twin_hist t
  obtain ⟨s₂', r₂, g1, g2, g3, g4⟩ := same_step o₁ o₂ hk hS (hist_inv o₁ a) (hist_inv o₂ b) (twin_same o₁ o₂ hk hS t) hargs hal he hl₁ hl₂ h
  exact ⟨s₂', r₂, g1, g3, g4, .call t hargs hal he hl₁ hl₂ h g1⟩

/-- Heaps at multiples of the page size are placed alike for every alignment up to the page size. -/
theorem C98_alike {a k : Nat} (h₁ : 2 ^ k ∣ C₁.base) (h₂ : 2 ^ k ∣ C₂.base) (ha : a ≤ 2 ^ k) : Alike C₁ C₂ a := by
  intro j hj
  have hjk : j ≤ k := by
    by_contra hc
    have : 2 ^ (k + 1) ≤ 2 ^ j := Nat.pow_le_pow_right (by omega) (by omega)
    have e : 2 ^ (k + 1) = 2 * 2 ^ k := by rw [Nat.pow_succ, Nat.mul_comm]
    omega
  have d := Nat.pow_dvd_pow 2 hjk
  rw [Nat.mod_eq_zero_of_dvd (d.trans h₁), Nat.mod_eq_zero_of_dvd (d.trans h₂)]

end Verif.Mm
