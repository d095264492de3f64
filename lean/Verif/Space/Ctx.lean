import Mathlib.Logic.Function.Basic
import Mathlib.Data.List.Basic
/-!
# Contexts of a space under concurrent threads

`OSHMPI_space_create_ctx` (`/repo/src/internal/space_impl.c` L253-271) and `OSHMPI_ctx_destroy`
(`/repo/src/internal/ctx_impl.c` L9-18). The compare-and-swap on `used_flag` is one atomic step
(`OPA_cas_int`, oshmpi_util.h L240; L219-226 in a single-threaded build).
-/
namespace Verif.Space.Ctx

/-- where a thread is: outside, about to inspect context `i`, or past a successful CAS on `i` and about to return
(space_impl.c L261-266) -/
inductive Th where
  | idle | scan (i : Nat) | won (i : Nat)
deriving DecidableEq, Repr

/-- the space's context table (`ctx_list[i].used_flag`, oshmpi_impl.h L150-154), the threads, and the contexts that
user code holds: returned by a creation and not yet destroyed. -/
structure St where
  flag : Nat → Bool
  th : Nat → Th
  live : List Nat

/-- just after `OSHMPI_space_attach`: all flags 0 (space_impl.c L321) -/
def init : St := ⟨fun _ => false, fun _ => .idle, []⟩

/-- Atomic steps: entering the call, one CAS, returning a context, returning `SHMEM_NO_CTX`, destroying. -/
inductive Ev where
  | start (t : Nat)
  | cas (t : Nat)
  | ret (t : Nat)
  | noctx (t : Nat)
  | destroy (i : Nat)
deriving DecidableEq, Repr

/-- One step with `k` = `config.num_contexts`; `none` = not enabled. Destroying is enabled only on a context the
user holds (precondition of the API). -/
def step (k : Nat) (s : St) : Ev → Option St
  -- space_impl.c L253-260
  | .start t => if s.th t = .idle then some { s with th := Function.update s.th t (.scan 0) } else none
  -- space_impl.c L261-265
  | .cas t =>
    match s.th t with
    | .scan i =>
      if i < k then
        if s.flag i = false then
          some { s with flag := Function.update s.flag i true, th := Function.update s.th t (.won i) }
        else some { s with th := Function.update s.th t (.scan (i + 1)) }
      else none
    | .idle => none
    | .won _ => none
  -- space_impl.c L263, L270 (*ctx_ptr set, SHMEM_SUCCESS)
  | .ret t =>
    match s.th t with
    | .won i => some { s with th := Function.update s.th t .idle, live := s.live ++ [i] }
    | .idle => none
    | .scan _ => none
  -- space_impl.c L267-268
  | .noctx t =>
    match s.th t with
    | .scan i => if k ≤ i then some { s with th := Function.update s.th t .idle } else none
    | .idle => none
    | .won _ => none
  -- ctx_impl.c L11
  | .destroy i =>
    if i ∈ s.live then some { s with flag := Function.update s.flag i false, live := s.live.filter (· != i) }
    else none

/-- a whole interleaving -/
def run (k : Nat) (s : St) : List Ev → Option St
  | [] => some s
  | e :: es => (step k s e).bind (fun s' => run k s' es)

/-- what the assertion of `OSHMPI_space_detach` (space_impl.c L350) checks for every context -/
def detachOk (k : Nat) (s : St) : Bool := (List.range k).all (fun i => s.flag i == false)

theorem run_append (k : Nat) (s : St) (a b : List Ev) :
    run k s (a ++ b) = (run k s a).bind (fun s' => run k s' b) := by
  induction a generalizing s with
  | nil => rfl
  | cons e es ih =>
    simp only [List.cons_append, run]
    cases step k s e with
    | none => rfl
    | some s' => simp only [Option.bind_some]; exact ih s'

/-- invariant -/
structure Inv (k : Nat) (s : St) : Prop where
  nodup : s.live.Nodup
  liveFlag : ∀ i ∈ s.live, s.flag i = true
  bound : ∀ i, s.flag i = true → i < k
  wonFlag : ∀ t i, s.th t = .won i → s.flag i = true ∧ i ∉ s.live
  wonUniq : ∀ t t' i, s.th t = .won i → s.th t' = .won i → t = t'
  owned : ∀ i, s.flag i = true → i ∈ s.live ∨ ∃ t, s.th t = .won i

theorem inv_init (k : Nat) : Inv k init :=
  ⟨by simp [init], by simp [init], by simp [init], by simp [init], by simp [init], by simp [init]⟩

theorem upd_won {f : Nat → Th} {t : Nat} {v : Th} (hv : ∀ j, v ≠ .won j) {t' i : Nat}
    (h : Function.update f t v t' = .won i) : f t' = .won i ∧ t' ≠ t := by
  by_cases e : t' = t
  · subst e; simp only [Function.update_self] at h; exact absurd h (hv i)
  · rw [Function.update_of_ne e] at h; exact ⟨h, e⟩

theorem inv_th {k : Nat} {s : St} (hi : Inv k s) {t : Nat} {v : Th} (hv : ∀ j, v ≠ .won j)
    (ht : ∀ j, s.th t ≠ .won j) : Inv k { s with th := Function.update s.th t v } where
  nodup := hi.nodup
  liveFlag := hi.liveFlag
  bound := hi.bound
  wonFlag := fun t' i h => hi.wonFlag t' i (upd_won hv h).1
  wonUniq := fun t1 t2 i h1 h2 => hi.wonUniq t1 t2 i (upd_won hv h1).1 (upd_won hv h2).1
  owned := fun i h => by
    rcases hi.owned i h with h' | ⟨t', h'⟩
    · exact Or.inl h'
    · refine Or.inr ⟨t', ?_⟩
      show Function.update s.th t v t' = _
      rw [Function.update_of_ne]
      · exact h'
      · rintro rfl; exact ht i h'

theorem step_inv {k : Nat} {s s' : St} {e : Ev} (hi : Inv k s) (h : step k s e = some s') : Inv k s' := by
  cases e with
  | start t =>
    simp only [step] at h
    split at h
    · rename_i ht
      cases h
      exact inv_th hi (by simp) (by simp [ht])
    · cases h
  | cas t =>
    simp only [step] at h
    split at h
    · rename_i i ht
      split at h
      · rename_i hik
        split at h
        · rename_i hf
          cases h
          have hnl : i ∉ s.live := fun hm => by
            have := hi.liveFlag i hm; rw [hf] at this; cases this
          have hnw : ∀ t', s.th t' ≠ .won i := fun t' hw => by
            have := (hi.wonFlag t' i hw).1; rw [hf] at this; cases this
          refine ⟨hi.nodup, ?_, ?_, ?_, ?_, ?_⟩
          · intro j hj
            show Function.update s.flag i true j = true
            by_cases e : j = i
            · subst e; exact absurd hj hnl
            · rw [Function.update_of_ne e]; exact hi.liveFlag j hj
          · intro j hj
            by_cases e : j = i
            · subst e; exact hik
            · have hj' : Function.update s.flag i true j = true := hj
              rw [Function.update_of_ne e] at hj'; exact hi.bound j hj'
          · intro t' j hj
            have hj' : Function.update s.th t (.won i) t' = .won j := hj
            show Function.update s.flag i true j = true ∧ j ∉ s.live
            by_cases e : t' = t
            · subst e
              rw [Function.update_self] at hj'
              cases hj'
              exact ⟨by rw [Function.update_self], hnl⟩
            · rw [Function.update_of_ne e] at hj'
              obtain ⟨a, b⟩ := hi.wonFlag t' j hj'
              refine ⟨?_, b⟩
              rw [Function.update_of_ne]
              · exact a
              · rintro rfl; exact hnw t' hj'
          · intro t1 t2 j h1 h2
            have h1' : Function.update s.th t (.won i) t1 = .won j := h1
            have h2' : Function.update s.th t (.won i) t2 = .won j := h2
            by_cases e1 : t1 = t <;> by_cases e2 : t2 = t
            · rw [e1, e2]
            · subst e1
              rw [Function.update_self] at h1'
              cases h1'
              rw [Function.update_of_ne e2] at h2'
              exact absurd h2' (hnw t2)
            · subst e2
              rw [Function.update_self] at h2'
              cases h2'
              rw [Function.update_of_ne e1] at h1'
              exact absurd h1' (hnw t1)
            · rw [Function.update_of_ne e1] at h1'
              rw [Function.update_of_ne e2] at h2'
              exact hi.wonUniq t1 t2 j h1' h2'
          · intro j hj
            have hj' : Function.update s.flag i true j = true := hj
            by_cases e : j = i
            · subst e
              exact Or.inr ⟨t, Function.update_self ..⟩
            · rw [Function.update_of_ne e] at hj'
              rcases hi.owned j hj' with a | ⟨t', a⟩
              · exact Or.inl a
              · refine Or.inr ⟨t', ?_⟩
                show Function.update s.th t (.won i) t' = _
                rw [Function.update_of_ne]
                · exact a
                · rintro rfl; rw [ht] at a; cases a
        · cases h
          exact inv_th hi (by simp) (by simp [ht])
      · cases h
    · cases h
    · cases h
  | ret t =>
    simp only [step] at h
    split at h
    · rename_i i ht
      cases h
      obtain ⟨hf, hnl⟩ := hi.wonFlag t i ht
      refine ⟨?_, ?_, hi.bound, ?_, ?_, ?_⟩
      · show (s.live ++ [i]).Nodup
        rw [List.nodup_append]
        refine ⟨hi.nodup, by simp, ?_⟩
        intro a ha b hb
        simp at hb; subst hb
        rintro rfl; exact hnl ha
      · intro j hj
        have hj' : j ∈ s.live ++ [i] := hj
        rw [List.mem_append, List.mem_singleton] at hj'
        rcases hj' with a | rfl
        · exact hi.liveFlag j a
        · exact hf
      · intro t' j hj
        obtain ⟨a, b⟩ := upd_won (by simp) hj
        obtain ⟨c, d⟩ := hi.wonFlag t' j a
        refine ⟨c, ?_⟩
        show j ∉ s.live ++ [i]
        rw [List.mem_append, List.mem_singleton]
        rintro (e | rfl)
        · exact d e
        · exact b (hi.wonUniq _ _ _ a ht)
      · intro t1 t2 j h1 h2
        exact hi.wonUniq t1 t2 j (upd_won (by simp) h1).1 (upd_won (by simp) h2).1
      · intro j hj
        show j ∈ s.live ++ [i] ∨ ∃ t', Function.update s.th t .idle t' = .won j
        rcases hi.owned j hj with a | ⟨t', a⟩
        · exact Or.inl (List.mem_append_left _ a)
        · by_cases e : t' = t
          · subst e; rw [ht] at a; cases a
            exact Or.inl (by simp)
          · exact Or.inr ⟨t', by rw [Function.update_of_ne e]; exact a⟩
    · cases h
    · cases h
  | noctx t =>
    simp only [step] at h
    split at h
    · rename_i i ht
      split at h
      · cases h
        exact inv_th hi (by simp) (by simp [ht])
      · cases h
    · cases h
    · cases h
  | destroy i =>
    simp only [step] at h
    split at h
    · rename_i hm
      cases h
      refine ⟨hi.nodup.filter _, ?_, ?_, ?_, hi.wonUniq, ?_⟩
      · intro j hj
        have hj' : j ∈ s.live.filter (· != i) := hj
        rw [List.mem_filter] at hj'
        show Function.update s.flag i false j = true
        rw [Function.update_of_ne (by simpa using hj'.2)]
        exact hi.liveFlag j hj'.1
      · intro j hj
        have hj' : Function.update s.flag i false j = true := hj
        by_cases e : j = i
        · subst e; rw [Function.update_self] at hj'; cases hj'
        · rw [Function.update_of_ne e] at hj'; exact hi.bound j hj'
      · intro t j hj
        obtain ⟨a, b⟩ := hi.wonFlag t j hj
        show Function.update s.flag i false j = true ∧ j ∉ s.live.filter (· != i)
        constructor
        · rw [Function.update_of_ne]
          · exact a
          · rintro rfl; exact b hm
        · intro hh; exact b (List.mem_filter.1 hh).1
      · intro j hj
        have hj' : Function.update s.flag i false j = true := hj
        show j ∈ s.live.filter (· != i) ∨ _
        by_cases e : j = i
        · subst e; rw [Function.update_self] at hj'; cases hj'
        · rw [Function.update_of_ne e] at hj'
          rcases hi.owned j hj' with a | a
          · exact Or.inl (List.mem_filter.2 ⟨a, by simpa using e⟩)
          · exact Or.inr a
    · cases h

theorem run_inv {k : Nat} {s s' : St} {es : List Ev} (hi : Inv k s) (h : run k s es = some s') : Inv k s' := by
  induction es generalizing s with
  | nil => cases h; exact hi
  | cons e es ih =>
    simp only [run] at h
    cases hs : step k s e with
    | none => rw [hs] at h; cases h
    | some s1 => rw [hs] at h; exact ih (step_inv hi hs) h

/-- C42. Over every interleaving no context is held twice; a context about to be returned is held by nobody and is
about to be returned by one thread only; it is one of the space's contexts. -/
theorem C42_exclusive {k : Nat} {es : List Ev} {s : St} (h : run k init es = some s) :
    s.live.Nodup ∧ (∀ i ∈ s.live, i < k) ∧
    (∀ t i, s.th t = .won i → i < k ∧ i ∉ s.live ∧ ∀ t', s.th t' = .won i → t' = t) := by
  have hi := run_inv (inv_init k) h
  refine ⟨hi.nodup, fun i hm => hi.bound i (hi.liveFlag i hm), ?_⟩
  intro t i ht
  obtain ⟨a, b⟩ := hi.wonFlag t i ht
  exact ⟨hi.bound i a, b, fun t' h' => hi.wonUniq _ _ _ h' ht⟩

/-- somebody has context `i`: user code holds it or a creation has taken it and is returning -/
def InUse (s : St) (i : Nat) : Prop := i ∈ s.live ∨ ∃ t, s.th t = .won i

theorem inUse_iff {k : Nat} {s : St} (hi : Inv k s) (i : Nat) : InUse s i ↔ s.flag i = true := by
  constructor
  · rintro (h | ⟨t, h⟩)
    · exact hi.liveFlag i h
    · exact (hi.wonFlag t i h).1
  · exact hi.owned i

/-- one step moves a scanning thread forward only over a context that is in use -/
theorem scan_step {k : Nat} {s s' : St} {e : Ev} {t i : Nat} (h : step k s e = some s') (hne : e ≠ .start t)
    (ht : s'.th t = .scan i) : s.th t = .scan i ∨ ∃ j, i = j + 1 ∧ s.th t = .scan j ∧ s.flag j = true := by
  have other : ∀ (t' : Nat) (v : Th), (t' = t → v ≠ .scan i) → Function.update s.th t' v t = .scan i →
      s.th t = .scan i := by
    intro t' v hv hu
    by_cases e : t = t'
    · subst e; rw [Function.update_self] at hu; exact absurd hu (hv rfl)
    · rwa [Function.update_of_ne e] at hu
  cases e with
  | start t' =>
    simp only [step] at h
    split at h
    · cases h
      refine Or.inl (other t' _ ?_ ht)
      rintro rfl; exact absurd rfl hne
    · cases h
  | cas t' =>
    simp only [step] at h
    split at h
    · rename_i j hj
      split at h
      · split at h
        · cases h
          exact Or.inl (other t' _ (by simp) ht)
        · rename_i hf
          cases h
          by_cases e : t = t'
          · subst e
            have ht' : Function.update s.th t (.scan (j + 1)) t = .scan i := ht
            rw [Function.update_self] at ht'
            cases ht'
            exact Or.inr ⟨j, rfl, hj, by simpa using hf⟩
          · exact Or.inl (other t' _ (fun e' => absurd e'.symm e) ht)
      · cases h
    · cases h
    · cases h
  | ret t' =>
    simp only [step] at h
    split at h
    · cases h
      exact Or.inl (other t' _ (by simp) ht)
    · cases h
    · cases h
  | noctx t' =>
    simp only [step] at h
    split at h
    · split at h
      · cases h
        exact Or.inl (other t' _ (by simp) ht)
      · cases h
    · cases h
    · cases h
  | destroy j =>
    simp only [step] at h
    split at h
    · cases h; exact Or.inl ht
    · cases h

theorem snocInd {α : Type} {P : List α → Prop} (l : List α) (nil : P [])
    (snoc : ∀ (l : List α) (a : α), P l → P (l ++ [a])) : P l := by
  rw [← List.reverse_reverse l]
  induction l.reverse with
  | nil => exact nil
  | cons a t ih => rw [List.reverse_cons]; exact snoc _ _ ih

theorem scanned_in_use {k : Nat} {pre : List Ev} {t : Nat} (mid : List Ev) {s : St} {i : Nat}
    (h : run k init (pre ++ [.start t] ++ mid) = some s) (hm : Ev.start t ∉ mid) (ht : s.th t = .scan i) :
    ∀ j < i, ∃ m1 m2 s1, mid = m1 ++ m2 ∧ run k init (pre ++ [.start t] ++ m1) = some s1 ∧ InUse s1 j := by
  induction mid using snocInd generalizing s i with
  | nil =>
    rw [List.append_nil, run_append] at h
    cases hp : run k init pre with
    | none => rw [hp] at h; cases h
    | some s0 =>
      rw [hp] at h
      simp only [Option.bind_some, run, step] at h
      split at h
      · simp only [Option.bind_some, Option.some.injEq] at h
        subst h
        simp only [Function.update_self, Th.scan.injEq] at ht
        intro j hj; omega
      · cases h
  | snoc mid e ih =>
    rw [← List.append_assoc, run_append] at h
    cases hp : run k init (pre ++ [.start t] ++ mid) with
    | none => rw [hp] at h; cases h
    | some s0 =>
      rw [hp] at h
      simp only [Option.bind_some, run] at h
      cases hs : step k s0 e with
      | none => rw [hs] at h; cases h
      | some s1 =>
        rw [hs] at h
        simp only [Option.bind_some, Option.some.injEq] at h
        subst h
        have hm' : Ev.start t ∉ mid := fun hh => hm (List.mem_append_left _ hh)
        have hne : e ≠ .start t := fun hh => hm (by simp [hh])
        intro j hj
        rcases scan_step hs hne ht with h1 | ⟨j', rfl, h1, hf⟩
        · obtain ⟨m1, m2, s2, e1, e2, e3⟩ := ih hp hm' h1 j hj
          exact ⟨m1, m2 ++ [e], s2, by rw [e1, List.append_assoc], e2, e3⟩
        · by_cases hjj : j = j'
          · subst hjj
            exact ⟨mid, [e], s0, rfl, hp, (inUse_iff (run_inv (inv_init k) hp) j).2 hf⟩
          · obtain ⟨m1, m2, s2, e1, e2, e3⟩ := ih hp hm' h1 j (by omega)
            exact ⟨m1, m2 ++ [e], s2, by rw [e1, List.append_assoc], e2, e3⟩

/-- C42. A creation fails only if every context was in use at some moment during the call. -/
theorem C42_fails_only_if_busy {k : Nat} {pre mid : List Ev} {t : Nat} {s : St}
    (h : run k init (pre ++ [.start t] ++ mid ++ [.noctx t]) = some s) (hm : Ev.start t ∉ mid) :
    ∀ j < k, ∃ m1 m2 s1, mid = m1 ++ m2 ∧ run k init (pre ++ [.start t] ++ m1) = some s1 ∧ InUse s1 j := by
  rw [run_append] at h
  cases hp : run k init (pre ++ [.start t] ++ mid) with
  | none => rw [hp] at h; cases h
  | some s0 =>
    rw [hp] at h
    simp only [Option.bind_some, run, step] at h
    split at h
    · rename_i i hi
      split at h
      · rename_i hk
        intro j hj
        exact scanned_in_use mid hp hm hi j (by omega)
      · cases h
    · cases h
    · cases h

theorem solo_scan {k : Nat} {s : St} {t i j : Nat} (hs : s.th t = .scan j) (hij : j ≤ i) (hik : i < k)
    (hfree : s.flag i = false) (hleast : ∀ m < i, s.flag m = true) :
    run k s (List.replicate (i - j + 1) (.cas t) ++ [.ret t]) =
      some { flag := Function.update s.flag i true, th := Function.update s.th t .idle, live := s.live ++ [i] } := by
  obtain ⟨d, hd⟩ : ∃ d, i - j = d := ⟨_, rfl⟩
  induction d generalizing s j with
  | zero =>
    have : j = i := by omega
    subst this
    rw [hd]
    simp only [Nat.zero_add, List.replicate_one, List.cons_append, List.nil_append, run, step, hs, hik, hfree,
      if_true, Option.bind_some, Function.update_self, Function.update_idem]
  | succ d ih =>
    rw [hd, List.replicate_succ, List.cons_append]
    simp only [run]
    have hfj := hleast j (by omega)
    have hst : step k s (.cas t) = some { s with th := Function.update s.th t (.scan (j + 1)) } := by
      simp only [step, hs]
      rw [if_pos (by omega), if_neg (by rw [hfj]; simp)]
    rw [hst, Option.bind_some]
    have := ih (s := { s with th := Function.update s.th t (.scan (j + 1)) }) (j := j + 1)
      (Function.update_self ..) (by omega) hfree hleast (by omega)
    rw [show i - (j + 1) + 1 = d + 1 by omega] at this
    rw [this]
    simp only [Function.update_idem]

/-- C42. If some context is free, a creation that runs without interference succeeds, and gives the lowest one that
is not in use; hence a destroyed context can be obtained again. -/
theorem C42_obtainable {k : Nat} {es : List Ev} {s : St} (h : run k init es = some s) {t i : Nat}
    (ht : s.th t = .idle) (hik : i < k) (hfree : ¬ InUse s i) (hleast : ∀ m < i, InUse s m) :
    ∃ es' s', run k s (.start t :: es' ++ [.ret t]) = some s' ∧ (∀ e ∈ es', e = .cas t) ∧
      s'.live = s.live ++ [i] ∧ s'.th t = .idle := by
  have hi := run_inv (inv_init k) h
  rw [inUse_iff hi, Bool.not_eq_true] at hfree
  have hleast' : ∀ m < i, s.flag m = true := fun m hm => (inUse_iff hi m).1 (hleast m hm)
  have := solo_scan (s := { s with th := Function.update s.th t (.scan 0) }) (t := t) (i := i) (j := 0) (k := k)
    (Function.update_self ..) (Nat.zero_le _) hik hfree hleast'
  have hr : run k s (.start t :: List.replicate (i - 0 + 1) (.cas t) ++ [.ret t]) =
      run k { s with th := Function.update s.th t (.scan 0) } (List.replicate (i - 0 + 1) (.cas t) ++ [.ret t]) := by
    rw [List.cons_append]
    simp only [run, step, ht, if_true, Option.bind_some]
  exact ⟨List.replicate (i - 0 + 1) (.cas t), _, hr.trans this, fun e he => List.eq_of_mem_replicate he, rfl,
    Function.update_self ..⟩

/-- C42. With every thread outside the calls, the assertion in detach holds exactly when the user has destroyed every
context. -/
theorem C42_detach_iff {k : Nat} {es : List Ev} {s : St} (h : run k init es = some s) (hq : ∀ t, s.th t = .idle) :
    detachOk k s = true ↔ s.live = [] := by
  have hi := run_inv (inv_init k) h
  unfold detachOk
  rw [List.all_eq_true]
  constructor
  · intro hall
    rw [List.eq_nil_iff_forall_not_mem]
    intro i hm
    have hf := hi.liveFlag i hm
    have := hall i (List.mem_range.2 (hi.bound i hf))
    rw [hf] at this
    simp at this
  · intro hl i _
    cases hf : s.flag i with
    | false => rfl
    | true =>
      rcases hi.owned i hf with a | ⟨t, a⟩
      · rw [hl] at a; simp at a
      · rw [hq t] at a; cases a

/-! ## Non-vacuity -/

/-- two threads race for two contexts and both get one; a third fails; one is destroyed and obtained again -/
example :
    (run 2 init [.start 0, .start 1, .cas 1, .cas 0, .cas 0, .ret 1, .ret 0, .start 2, .cas 2, .cas 2, .noctx 2,
      .destroy 0, .start 2, .cas 2, .ret 2]).map (fun s => s.live) = some [1, 0] := by decide

/-- hypotheses of `C42_obtainable`: context 0 in use, 1 free -/
example : ∃ s, run 2 init [.start 0, .cas 0, .ret 0] = some s ∧ s.th 5 = .idle ∧ ¬ InUse s 1 ∧ ∀ m < 1, InUse s m := by
  refine ⟨_, rfl, rfl, ?_, ?_⟩
  · rintro (h | ⟨t, h⟩)
    · revert h; decide
    · simp only [init] at h
      by_cases e : t = 0
      · subst e; simp at h
      · simp [Function.update_of_ne e] at h
  · intro m hm
    have : m = 0 := by omega
    subst this
    exact Or.inl (by decide)

end Verif.Space.Ctx
