import Verif.Mm.Symm
/-!
# C98: histories, and where symmetry fails
-/
namespace Verif.Mm.Ex
open Verif.Heap (accepted trueSize heapSize maxRequest callocReq)

instance {c n : Nat} : Decidable (MemPool.Valid c n) := by unfold MemPool.Valid; infer_instance

instance {C : Cfg} {s : St} {p : Nat} : Decidable (Legal.elsewhere C s p) := by unfold Legal.elsewhere; infer_instance

instance {C : Cfg} {s : St} {held : List (Nat × Nat)} {p : Nat} : Decidable (Legal.freed C s held p) := by unfold Legal.freed; infer_instance

instance {C : Cfg} {s : St} {e : Env} {n : Nat} : Decidable (Legal.placed C s e n) := by unfold Legal.placed; infer_instance

instance {C : Cfg} {s : St} {held : List (Nat × Nat)} {e : Env} {c : Call} : Decidable (Legal C s held e c) := by
  cases c <;> unfold Legal <;> infer_instance

instance {C : Cfg} {s : St} {l : Loc} : Decidable (Inside C s l) := match l with
  | .null => .isTrue trivial
  | .heap d => inferInstanceAs (Decidable (d < trueSize C.k C.S))
  | .space i d => match h : s.spaces[i]? with
    | none => .isFalse (fun ⟨t, h', _⟩ => by rw [h] at h'; cases h')
    | some t => if hd : d < t.size then .isTrue ⟨t, h, hd⟩ else .isFalse (fun ⟨u, h', hu⟩ => by rw [h] at h'; injection h' with h'; subst h'; exact hd hu)

instance {C : Cfg} {s : St} {c : SymCall} : Decidable (Args C s c) := by
  cases c <;> unfold Args <;> infer_instance

/-- one call of a history -/
def go (C : Cfg) (x : St × List (Nat × Nat)) (e : Env) (c : Call) : Option (St × List (Nat × Nat)) :=
  if Legal C x.1 x.2 e c then match step C x.1 e c with
    | .ok (s', r) => some (s', after x.2 r c)
    | .abort => none
    | .ub => none
    | .hang => none
  else none

def gos (C : Cfg) (x : St × List (Nat × Nat)) : List (Env × Call) → Option (St × List (Nat × Nat))
  | [] => some x
  | (e, c) :: l => (go C x e c).bind (fun y => gos C y l)

theorem gos_hist {C : Cfg} {l : List (Env × Call)} : ∀ {x y : St × List (Nat × Nat)}, Hist C x.1 x.2 → gos C x l = some y → Hist C y.1 y.2 := by
  induction l with
  | nil => intro x y h e; injection e with e; subst e; exact h
  | cons a l ih =>
    obtain ⟨e, c⟩ := a
    intro x y h hy
    simp only [gos, Option.bind_eq_some_iff] at hy
    obtain ⟨z, h1, h2⟩ := hy
    refine ih ?_ h2
    unfold go at h1
    split at h1
    · rename_i hl
      split at h1
      · rename_i s' r hs
        injection h1 with h1
        subst h1
        exact .call h hl hs
      · cases h1
      · cases h1
      · cases h1
    · cases h1

/-- a PE at its start -/
def start (k S : Nat) : St := match Heap.fresh k S with
  | some h => ⟨⟨h, .init, []⟩, []⟩
  | none => ⟨⟨⟨[], none⟩, .init, []⟩, []⟩

theorem start_hist {C : Cfg} (h : (Heap.fresh C.k C.S).isSome = true) : Hist C (start C.k C.S) [] := by
  unfold start
  cases hf : Heap.fresh C.k C.S with
  | none => rw [hf] at h; cases h
  | some x => exact .init hf

/-- a heap of 128 KiB -/
def A : Cfg := ⟨0x7f0000000000, 12, 32 * 2 ^ 12⟩
/-- the heap of another PE, elsewhere -/
def B : Cfg := ⟨0x7e0000003000, 12, 32 * 2 ^ 12⟩

theorem okA : A.Ok := ⟨⟨by decide, by decide, by decide, by decide, by decide⟩, by decide⟩
theorem okB : B.Ok := ⟨⟨by decide, by decide, by decide, by decide, by decide⟩, by decide⟩

/-- an environment: where `malloc` puts a space -/
def at_ (handle mem : Nat) : Env := ⟨false, handle, mem, fun _ => 0⟩

/-- two spaces, blocks in all three objects, one freed, one moved -/
def calls : List (Env × Call) := [
  (at_ 0 0, .shmem_malloc 100), (at_ 0x1000 0x5000000, .shmemx_space_create 20000), (at_ 0 0, .shmalloc 300), (at_ 0x2000 0x6000000, .shmemx_space_create 5000),
  (at_ 0 0, .shmemx_space_malloc 0x1000 5000), (at_ 0 0, .shmem_align 4096 64), (at_ 0 0, .shmemx_space_calloc 0x2000 1 100), (at_ 0 0, .shmem_calloc 4 8),
  (at_ 0 0, .shmem_realloc 0x7f00000003c0 500), (at_ 0 0, .shmem_free 0x7f0000000430), (at_ 0 0, .shmemx_space_align 0x1000 64 4000), (at_ 0 0, .shmem_free 0x5000000)]

/-- what the user holds -/
def heldNow : List (Nat × Nat) := [(0x5002000, 4000), (0x7f00000005a0, 500), (0x7f0000000570, 32), (0x6000000, 100), (0x7f0000001000, 64)]

theorem calls_seen : (gos A (start A.k A.S, []) calls).map (fun x => (x.2, x.1.spaces.map (fun t => (t.id, t.base, t.size)))) =
    some (heldNow, [(0x1000, 0x5000000, 20480), (0x2000, 0x6000000, 8192)]) := by
  decide +kernel

theorem hist_now : ∃ s, Hist A s heldNow ∧ s.spaces.map (fun t => (t.id, t.base, t.size)) = [(0x1000, 0x5000000, 20480), (0x2000, 0x6000000, 8192)] := by
  have h := calls_seen
  rw [Option.map_eq_some_iff] at h
  obtain ⟨⟨s, l⟩, h1, h2⟩ := h
  injection h2 with h2 h3
  simp only at h2
  subst h2
  exact ⟨s, gos_hist (start_hist (by decide +kernel)) h1, h3⟩

/-- the hypotheses of `C98_blocks`, `C98_free_heap_partial`, `C98_free_space`, `C98_free_other`, `C98_destroy`, `C98_realloc_space_fails`, `C98_realloc_zero_fails`: -/
example : ∃ s, Hist A s heldNow ∧ (∃ x ∈ heldNow, A.base ≤ x.1 ∧ x.1 < A.base + heapSize A.k A.S) ∧
    (∃ x ∈ heldNow, ∃ t ∈ s.spaces, t.base ≤ x.1 ∧ x.1 < t.base + t.size) ∧
    (∃ p, 0 < p ∧ p < 2 ^ 63 ∧ (p < A.base ∨ A.base + trueSize A.k A.S ≤ p) ∧ ∀ t ∈ s.spaces, p < t.base ∨ t.base + t.size ≤ p) := by
  obtain ⟨s, h, hs⟩ := hist_now
  have hmem : ∀ t ∈ s.spaces, (t.base = 0x5000000 ∧ t.size = 20480) ∨ (t.base = 0x6000000 ∧ t.size = 8192) := by
    intro t ht
    have := List.mem_map_of_mem (f := fun t : Sp => (t.id, t.base, t.size)) ht
    rw [hs] at this
    simp only [List.mem_cons, List.not_mem_nil, or_false, Prod.mk.injEq] at this
    omega
  refine ⟨s, h, ⟨(0x7f0000000570, 32), by decide, by decide, by decide +kernel⟩, ⟨(0x5002000, 4000), by decide, ?_⟩, ⟨0x42, by decide, by decide, by decide, ?_⟩⟩
  · have : (0x1000, 0x5000000, 20480) ∈ s.spaces.map (fun t => (t.id, t.base, t.size)) := by rw [hs]; decide
    obtain ⟨t, ht, e⟩ := List.mem_map.1 this
    simp only [Prod.mk.injEq] at e
    exact ⟨t, ht, by omega, by omega⟩
  · intro t ht
    have := hmem t ht
    omega

/-- the hypotheses of `C98_total_partial`, for a block that is moved within the heap and for a space that cannot be destroyed -/
example : ∃ s, Hist A s heldNow ∧ Legal A s heldNow (at_ 0 0) (.shmem_realloc 0x7f0000000570 5000) ∧ Survives s heldNow (.shmem_realloc 0x7f0000000570 5000) ∧
    Legal A s heldNow (at_ 0 0) (.shmemx_space_destroy 0x1000) ∧ ¬Survives s heldNow (.shmemx_space_destroy 0x1000) := by
  obtain ⟨s, h, hs⟩ := hist_now
  have hid : s.spaces.map Sp.id = [0x1000, 0x2000] := by
    have := congrArg (List.map Prod.fst) hs
    rw [List.map_map] at this
    exact this
  refine ⟨s, h, ⟨by decide, .inr (by decide)⟩, ?_, ?_, ?_⟩
  · intro t ht
    have := List.mem_map_of_mem (f := fun t : Sp => (t.id, t.base, t.size)) ht
    rw [hs] at this
    simp only [List.mem_cons, List.not_mem_nil, or_false, Prod.mk.injEq] at this
    omega
  · show 0x1000 ∈ s.spaces.map Sp.id
    rw [hid]
    decide
  · intro hc
    have : (0x1000, 0x5000000, 20480) ∈ s.spaces.map (fun t => (t.id, t.base, t.size)) := by rw [hs]; decide
    obtain ⟨t, ht, e⟩ := List.mem_map.1 this
    simp only [Prod.mk.injEq] at e
    exact hc t ht e.1 (0x5002000, 4000) (by decide) ⟨by simp only; omega, by simp only; omega⟩

/-- the hypotheses of `C98_align` and `C98_barriers` -/
example : ∃ s s' p, Hist A s [] ∧ step A s (at_ 0 0) (.shmem_align (2 ^ 13) 64) = .ok (s', ⟨.at_ p, 1⟩) ∧ p = 0x7f0000002000 := by
  have h : ((gos A (start A.k A.S, []) [(at_ 0 0, .shmem_align (2 ^ 13) 64)]).map (·.2)) = some [(0x7f0000002000, 64)] := by decide +kernel
  rw [Option.map_eq_some_iff] at h
  obtain ⟨⟨s', l⟩, h1, h2⟩ := h
  simp only at h2
  simp only [gos, Option.bind_eq_some_iff, Option.some.injEq, exists_eq_right] at h1
  unfold go at h1
  split at h1
  · split at h1
    · rename_i s'' r hs
      injection h1 with h1
      injection h1 with h3 h4
      have hb := C98_barriers hs
      have hb' : r.barriers = 1 := hb
      have hl : after.got r 64 [] = [(0x7f0000002000, 64)] := h4.trans h2
      cases hr : r.ptr with
      | null => unfold after.got at hl; rw [hr] at hl; cases hl
      | system => unfold after.got at hl; rw [hr] at hl; cases hl
      | at_ p =>
        unfold after.got at hl
        rw [hr] at hl
        simp only [List.cons.injEq, Prod.mk.injEq, and_true] at hl
        refine ⟨start A.k A.S, s'', p, start_hist (by decide +kernel), ?_, hl⟩
        rw [show r = ⟨.at_ p, 1⟩ by cases r; simp only at hr hb'; rw [hr, hb']] at hs
        exact hs
    · cases h1
    · cases h1
    · cases h1
  · cases h1

/-- everything given back -/
def back : List (Env × Call) := [(at_ 0 0, .shmem_free 0x5002000), (at_ 0 0, .shfree 0x7f00000005a0), (at_ 0 0, .shmem_free 0x7f0000000570), (at_ 0 0, .shmem_free 0x6000000),
  (at_ 0 0, .shmem_free 0x7f0000001000), (at_ 0 0, .shmem_free 0)]

/-- the hypotheses of `C98_restart_partial` -/
example : ∃ s, Hist A s [] ∧ (∀ x ∈ s.heap.live, 960 + x.1 < heapSize A.k A.S) ∧ s.spaces.length = 2 := by
  have h : ((gos A (start A.k A.S, []) (calls ++ back)).map (fun x => (x.2, x.1.heap.live, x.1.spaces.length))) = some ([], [], 2) := by decide +kernel
  rw [Option.map_eq_some_iff] at h
  obtain ⟨⟨s, l⟩, h1, h2⟩ := h
  simp only [Prod.mk.injEq] at h2
  obtain ⟨rfl, h3, h4⟩ := h2
  refine ⟨s, gos_hist (start_hist (by decide +kernel)) h1, ?_, h4⟩
  intro x hx
  rw [h3] at hx
  cases hx

/-- the hypotheses of `C98_free_leaks` -/
example : ∃ s, Hist A s [(0x7f0000020010, 100), (0x7f00000003c0, 130112)] ∧ A.base + heapSize A.k A.S ≤ 0x7f0000020010 ∧ 0x7f0000020010 < A.base + trueSize A.k A.S := by
  have h : ((gos A (start A.k A.S, []) [(at_ 0 0, .shmem_malloc 130112), (at_ 0 0, .shmem_malloc 100)]).map (fun x => x.2)) = some [(0x7f0000020010, 100), (0x7f00000003c0, 130112)] := by decide +kernel
  rw [Option.map_eq_some_iff] at h
  obtain ⟨⟨s, l⟩, h1, h2⟩ := h
  simp only at h2
  subst h2
  exact ⟨s, gos_hist (start_hist (by decide +kernel)) h1, by decide +kernel, by decide +kernel⟩

/-! ## Two PEs -/

/-- one call of two PEs, with alignments up to a page -/
def go2 (C₁ C₂ : Cfg) (x : (St × List (Nat × Nat)) × (St × List (Nat × Nat))) (e₁ e₂ : Env) (c : SymCall) : Option ((St × List (Nat × Nat)) × (St × List (Nat × Nat))) :=
  if Args C₁ x.1.1 c ∧ e₁.os = e₂.os ∧ Legal C₁ x.1.1 x.1.2 e₁ (on C₁ x.1.1 c) ∧ Legal C₂ x.2.1 x.2.2 e₂ (on C₂ x.2.1 c) then
    match step C₁ x.1.1 e₁ (on C₁ x.1.1 c), step C₂ x.2.1 e₂ (on C₂ x.2.1 c) with
    | .ok (s₁', r₁), .ok (s₂', r₂) => some ((s₁', after x.1.2 r₁ (on C₁ x.1.1 c)), (s₂', after x.2.2 r₂ (on C₂ x.2.1 c)))
    | _, _ => none
  else none

def gos2 (C₁ C₂ : Cfg) (x : (St × List (Nat × Nat)) × (St × List (Nat × Nat))) : List (Env × Env × SymCall) → Option ((St × List (Nat × Nat)) × (St × List (Nat × Nat)))
  | [] => some x
  | (e₁, e₂, c) :: l => (go2 C₁ C₂ x e₁ e₂ c).bind (fun y => gos2 C₁ C₂ y l)

theorem gos2_twin {C₁ C₂ : Cfg} {l : List (Env × Env × SymCall)} (hal : ∀ x ∈ l, AlikeFor C₁ C₂ x.2.2) :
    ∀ {x y : (St × List (Nat × Nat)) × (St × List (Nat × Nat))}, Twin C₁ C₂ x.1.1 x.1.2 x.2.1 x.2.2 → gos2 C₁ C₂ x l = some y → Twin C₁ C₂ y.1.1 y.1.2 y.2.1 y.2.2 := by
  induction l with
  | nil => intro x y h e; injection e with e; subst e; exact h
  | cons a l ih =>
    obtain ⟨e₁, e₂, c⟩ := a
    intro x y h hy
    simp only [gos2, Option.bind_eq_some_iff] at hy
    obtain ⟨z, h1, h2⟩ := hy
    refine ih (fun x hx => hal x (List.mem_cons_of_mem _ hx)) ?_ h2
    unfold go2 at h1
    split at h1
    · rename_i hl
      split at h1
      · rename_i s' r s'' r' hs hs'
        injection h1 with h1
        subst h1
        exact .call h hl.1 (hal _ (List.mem_cons_self ..)) hl.2.1 hl.2.2.1 hl.2.2.2 hs hs'
      · cases h1
    · cases h1

theorem start_twin {C₁ C₂ : Cfg} (h₁ : (Heap.fresh C₁.k C₁.S).isSome = true) (h₂ : (Heap.fresh C₂.k C₂.S).isSome = true) : Twin C₁ C₂ (start C₁.k C₁.S) [] (start C₂.k C₂.S) [] := by
  unfold start
  cases hf : Heap.fresh C₁.k C₁.S with
  | none => rw [hf] at h₁; cases h₁
  | some x =>
    cases hg : Heap.fresh C₂.k C₂.S with
    | none => rw [hg] at h₂; cases h₂
    | some y => exact .init hf hg

/-- two spaces, the second before the first on one PE and after it on the other; blocks in all objects -/
def sym : List (Env × Env × SymCall) := [
  (at_ 0 0, at_ 0 0, .shmem_malloc 100), (at_ 0x1000 0x5000000, at_ 0x91000 0x98000000, .shmemx_space_create 20000), (at_ 0x2000 0x6000000, at_ 0x92000 0x97000000, .shmemx_space_create 5000),
  (at_ 0 0, at_ 0 0, .shmemx_space_malloc 1 5000), (at_ 0 0, at_ 0 0, .shmem_align 4096 64), (at_ 0 0, at_ 0 0, .shmemx_space_malloc 0 4), (at_ 0 0, at_ 0 0, .shmemx_space_malloc 0 7),
  (at_ 0 0, at_ 0 0, .shmem_free (.space 0 0)), (at_ 0 0, at_ 0 0, .shmem_realloc (.heap 960) 700), (at_ 0 0, at_ 0 0, .shmem_free (.space 1 0)), (at_ 0 0, at_ 0 0, .shmemx_space_destroy 1)]

theorem sym_seen : (gos2 A B ((start A.k A.S, []), (start B.k B.S, [])) sym).map (fun x => (x.1.2, x.2.2)) =
    some ([(0x7f00000003c0, 700), (0x5001000, 7), (0x7f0000001000, 64)], [(0x7e00000033c0, 700), (0x98001000, 7), (0x7e0000004000, 64)]) := by
  decide +kernel

/-- the hypotheses of `C98_symmetric_partial`: two PEs with blocks in the heap and in a space, and a block of the space that is freed -/
example : ∃ s₁ s₂, Twin A B s₁ [(0x7f00000003c0, 700), (0x5001000, 7), (0x7f0000001000, 64)] s₂ [(0x7e00000033c0, 700), (0x98001000, 7), (0x7e0000004000, 64)] ∧
    AlikeFor A B (.shmem_align 1024 5) ∧ Args A s₁ (.shmem_free (.heap 960)) ∧
    Legal A s₁ [(0x7f00000003c0, 700), (0x5001000, 7), (0x7f0000001000, 64)] (at_ 0 0) (on A s₁ (.shmem_free (.heap 960))) ∧
    Legal B s₂ [(0x7e00000033c0, 700), (0x98001000, 7), (0x7e0000004000, 64)] (at_ 0 0) (on B s₂ (.shmem_free (.heap 960))) := by
  have h := sym_seen
  rw [Option.map_eq_some_iff] at h
  obtain ⟨⟨⟨s₁, l₁⟩, s₂, l₂⟩, h1, h2⟩ := h
  simp only [Prod.mk.injEq] at h2
  obtain ⟨rfl, rfl⟩ := h2
  have al : ∀ {a}, a ≤ 2 ^ 12 → Alike A B a := fun ha => C98_alike (k := 12) (by decide) (by decide) ha
  refine ⟨s₁, s₂, gos2_twin ?_ (start_twin (by decide +kernel) (by decide +kernel)) h1, al (by decide), (by decide +kernel : (960 : Nat) < trueSize A.k A.S), ?_, ?_⟩
  · intro x hx
    simp only [sym, List.mem_cons, List.not_mem_nil, or_false] at hx
    rcases hx with rfl | rfl | rfl | rfl | rfl | rfl | rfl | rfl | rfl | rfl | rfl <;> first | trivial | exact al (by decide)
  · exact ⟨(by decide : A.base + 960 < 2 ^ 63), .inl (by decide : A.base + 960 ∈ [0x7f00000003c0, 0x5001000, 0x7f0000001000])⟩
  · exact ⟨(by decide : B.base + 960 < 2 ^ 63), .inl (by decide : B.base + 960 ∈ [0x7e00000033c0, 0x98001000, 0x7e0000004000])⟩

/-- **C98 fails.** Heaps at different multiples of the page size: `shmem_align` with two pages gives the PEs different locations, although both make the same first call. -/
theorem C98_symmetric_fails : ∃ C₁ C₂ : Cfg, C₁.Ok ∧ C₂.Ok ∧ C₁.k = C₂.k ∧ C₁.S = C₂.S ∧ 2 ^ C₁.k ∣ C₁.base ∧ 2 ^ C₁.k ∣ C₂.base ∧
    ∃ s, Hist C₁ s [] ∧ Hist C₂ s [] ∧ ∃ e s₁ s₂ d₁ d₂, step C₁ s e (.shmem_align 8192 64) = .ok (s₁, ⟨.at_ (C₁.base + d₁), 1⟩) ∧
      step C₂ s e (.shmem_align 8192 64) = .ok (s₂, ⟨.at_ (C₂.base + d₂), 1⟩) ∧ d₁ ≠ d₂ := by
  refine ⟨A, B, okA, okB, rfl, rfl, by decide, by decide, start A.k A.S, start_hist (by decide +kernel), start_hist (C := B) (by decide +kernel), at_ 0 0, ?_⟩
  have get : ∀ (C : Cfg) d, (match step C (start A.k A.S) (at_ 0 0) (.shmem_align 8192 64) with | .ok (_, r) => r | .abort => ⟨.null, 0⟩ | .ub => ⟨.null, 0⟩ | .hang => ⟨.null, 0⟩) = (⟨.at_ (C.base + d), 1⟩ : Ret) →
      ∃ s', step C (start A.k A.S) (at_ 0 0) (.shmem_align 8192 64) = .ok (s', ⟨.at_ (C.base + d), 1⟩) := by
    intro C d h
    split at h
    · rename_i s' r hs
      exact ⟨s', by rw [hs, h]⟩
    · cases h
    · cases h
    · cases h
  obtain ⟨s₁, h₁⟩ := get A 0x2000 (by decide +kernel)
  obtain ⟨s₂, h₂⟩ := get B 0x1000 (by decide +kernel)
  exact ⟨s₁, s₂, 0x2000, 0x1000, h₁, h₂, by decide⟩

end Verif.Mm.Ex
