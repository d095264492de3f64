import Verif.Mm.Inv
/-!
# Every call keeps the invariant
-/
namespace Verif.Mm
open Verif.Heap (accepted trueSize heapSize maxRequest callocReq)

/-- blocks held after an allocation of `n` bytes (`after`) -/
theorem after_got {held : List (Nat × Nat)} {r : Ret} {n : Nat} : after.got r n held = match r.ptr with
    | .at_ p => (p, n) :: held
    | .null => held
    | .system => held := rfl

theorem got_at {held : List (Nat × Nat)} {p b n : Nat} : after.got ⟨.at_ p, b⟩ n held = (p, n) :: held := rfl
theorem got_null {held : List (Nat × Nat)} {b n : Nat} : after.got ⟨.null, b⟩ n held = held := rfl
theorem got_system {held : List (Nat × Nat)} {b n : Nat} : after.got ⟨.system, b⟩ n held = held := rfl

theorem ptr_none {C : Cfg} {os : Bool} {req : Nat} : C.ptr os req none = .system ∨ C.ptr os req none = .null := by
  unfold Cfg.ptr
  simp only
  split
  · exact .inl rfl
  · exact .inr rfl

/-- a new block of the heap is not one that is held -/
theorem fresh_heap {C : Cfg} (o : C.Ok) {s : St} {held : List (Nat × Nat)} (i : Inv C s held) {h : Dl.St} (hr : Dl.Reach C.a0 (trueSize C.k C.S) h) {q n : Nat}
    {rest : List (Nat × Nat)} (hl : h.live = (q, n) :: rest) {x : Nat × Nat} (hx : In C s x) (hsub : ∀ q', x.1 = C.a0 + q' → (q', x.2) ∈ s.heap.live → (q', x.2) ∈ rest) :
    x.1 ≠ C.a0 + q := by
  intro e
  have hq : (q, n) ∈ h.live := by rw [hl]; simp
  have hq' := live_in o hr hq
  rcases hx with ⟨q', h1, h2⟩ | ⟨t, ht, m, h1, h2⟩
  · have h3 := hsub q' h1 h2
    have hn := live_nodup o hr
    rw [hl, List.map_cons, List.nodup_cons] at hn
    have : q' = q := by omega
    subst this
    exact hn.1 (List.mem_map.2 ⟨_, h3, rfl⟩)
  · have a := (i.sp t ht).inside h1
    have b := i.heapApart t ht
    unfold Apart at b
    omega

/-- allocations in the heap -/
theorem heapCall_alloc {C : Cfg} (o : C.Ok) {s : St} {held : List (Nat × Nat)} (i : Inv C s held) (e : Env) (R : Nat) {c : Heap.Call} {req n : Nat}
    (hl : Dl.Legal s.heap c) (hc : ∀ h q, Dl.step C.a0 s.heap e.os c = some (h, q) → h.live = Heap.added q req s.heap.live) (hn : ∀ h q, Dl.step C.a0 s.heap e.os c = some (h, some q) → n = req) :
    ∃ h r, heapCall C s e R c = .ok ({ s with heap := h }, r) ∧ r.barriers = 1 ∧ Inv C { s with heap := h } (after.got r n held) := by
  obtain ⟨h, q, es⟩ := Dl.C70_total o.1.base16 (Ok.dvd o) (by have := Ok.lt o; omega) i.reach e.os c hl
  have hl' := hc h q es
  refine ⟨h, ⟨C.ptr e.os R q, 1⟩, by unfold heapCall; rw [show C.a0 = C.base + 960 from rfl, es], rfl, ?_⟩
  have keep : ∀ x, In C s x → In C { s with heap := h } x := by
    intro x hx
    rcases hx with ⟨q', h1, h2⟩ | hx
    · refine .inl ⟨q', h1, ?_⟩
      show _ ∈ h.live
      rw [hl']
      cases q with
      | none => exact h2
      | some q => exact List.mem_cons_of_mem _ h2
    · exact .inr hx
  cases q with
  | none =>
    have hg : after.got ⟨C.ptr e.os R none, 1⟩ n held = held := by
      rcases ptr_none (C := C) (os := e.os) (req := R) with h | h <;> rw [h] <;> rfl
    rw [hg]
    exact i.heapStep o es (fun x hx => keep x (i.blocks x hx)) (fun q n h => .inl (by rw [hl'] at h; exact h)) (fun x hx => .inl (List.mem_map_of_mem hx)) i.nodup
  | some q =>
    have hnr := hn h q es
    subst hnr
    show Inv C _ ((C.a0 + q, n) :: held)
    refine i.heapStep o es ?_ ?_ (fun x hx => .inl (List.mem_map_of_mem (List.mem_cons_of_mem _ hx))) ?_
    rotate_left
    · intro q' n' h
      rw [hl'] at h
      rcases List.mem_cons.1 h with h | h
      · injection h with h1 h2
        exact .inr (by rw [h1]; exact List.mem_cons_self ..)
      · exact .inl h
    rotate_left
    · intro x hx
      rcases List.mem_cons.1 hx with rfl | hx
      · exact .inl ⟨q, rfl, by show _ ∈ h.live; rw [hl']; exact List.mem_cons_self ..⟩
      · exact keep x (i.blocks x hx)
    · rw [List.map_cons, List.nodup_cons]
      refine ⟨?_, i.nodup⟩
      intro hm
      obtain ⟨x, hx, hxe⟩ := List.mem_map.1 hm
      exact fresh_heap o i (.step i.reach es) hl' (i.blocks x hx) (fun _ _ h => h) hxe

theorem grant_live {s s' : Dl.St} {req : Nat} {x : Option ((Heap.Heap × Dl.Bins) × Option Nat)} {q : Option Nat} (h : s.grant req x = some (s', q)) :
    s'.live = Heap.added q req s.live := by
  cases x with
  | none => cases h
  | some y =>
    obtain ⟨y, p⟩ := y
    cases p with
    | none =>
      simp only [Dl.St.grant, Option.some.injEq, Prod.mk.injEq] at h
      obtain ⟨rfl, rfl⟩ := h
      rfl
    | some p =>
      simp only [Dl.St.grant, Option.some.injEq, Prod.mk.injEq] at h
      obtain ⟨rfl, rfl⟩ := h
      rfl

theorem malloc_ok {C : Cfg} (o : C.Ok) {s : St} {held : List (Nat × Nat)} (i : Inv C s held) (e : Env) (R n : Nat) :
    ∃ h r, heapCall C s e R (.malloc n) = .ok ({ s with heap := h }, r) ∧ r.barriers = 1 ∧ Inv C { s with heap := h } (after.got r n held) :=
  heapCall_alloc o i e R (req := n) trivial (fun h q es => grant_live es) (fun _ _ _ => rfl)

theorem place_small {b : Dl.Bins} {t : Option Nat} {h : Heap.Heap} {req : Nat} {x : (Heap.Heap × Dl.Bins) × Option Nat} {q : Nat} (e : Dl.malloc h b req = some x) (hq : x.2 = some q) :
    req < maxRequest := by
  unfold Dl.malloc at e
  simp only at e
  generalize (Dl.place b h.top req) = y at e
  obtain ⟨ch, b'⟩ := y
  by_contra hc
  cases ch with
  | chunk p =>
    simp only [Heap.malloc, if_neg hc] at e
    cases e
  | top =>
    simp only [Heap.malloc, if_neg hc] at e
    cases e
  | outside f =>
    cases f with
    | false =>
      simp only [Heap.malloc, Option.map_some, Option.some.injEq] at e
      subst e
      cases hq
    | true =>
      simp only [Heap.malloc] at e
      cases ht : h.top with
      | none =>
        rw [ht] at e
        simp at e
        subst e
        cases hq
      | some t =>
        rw [ht] at e
        simp at e
        subst e
        cases hq

theorem callocReq_eq {c n : Nat} (hc : c < 2 ^ 64) (hn : n < 2 ^ 64) (hlt : callocReq c n < maxRequest) : callocReq c n = c * n := by
  unfold callocReq at hlt ⊢
  split
  · rename_i h
    rw [h, Nat.zero_mul]
  · rename_i h
    rw [if_neg h] at hlt
    simp only at hlt ⊢
    split
    · rename_i h2
      rw [if_pos h2] at hlt
      unfold maxRequest at hlt
      omega
    · rename_i h2
      by_cases hs : c < 2 ^ 16 ∧ n < 2 ^ 16
      · apply Nat.mod_eq_of_lt
        calc c * n ≤ 2 ^ 16 * 2 ^ 16 := Nat.mul_le_mul (by omega) (by omega)
          _ < 2 ^ 64 := by decide
      · have hd : c * n % 2 ^ 64 / c = n := by
          by_contra hd
          exact h2 ⟨by omega, hd⟩
        have h1 : c * (c * n % 2 ^ 64 / c) ≤ c * n % 2 ^ 64 := Nat.mul_div_le _ _
        rw [hd] at h1
        have := Nat.mod_le (c * n) (2 ^ 64)
        omega

theorem calloc_ok {C : Cfg} (o : C.Ok) {s : St} {held : List (Nat × Nat)} (i : Inv C s held) (e : Env) (R : Nat) {c n : Nat} (hc : c < 2 ^ 64) (hn : n < 2 ^ 64) :
    ∃ h r, heapCall C s e R (.calloc c n) = .ok ({ s with heap := h }, r) ∧ r.barriers = 1 ∧ Inv C { s with heap := h } (after.got r (c * n) held) := by
  refine heapCall_alloc o i e R (req := callocReq c n) trivial (fun h q es => grant_live es) ?_
  intro h q es
  simp only [Dl.step] at es
  cases hm : Dl.malloc s.heap.heap s.heap.bins (callocReq c n) with
  | none => rw [hm] at es; cases es
  | some x =>
    rw [hm] at es
    obtain ⟨x, p⟩ := x
    cases p with
    | none => simp only [Dl.St.grant, Option.some.injEq, Prod.mk.injEq] at es; cases es.2
    | some p => exact (callocReq_eq hc hn (place_small (t := none) hm rfl)).symm

theorem align_ok {C : Cfg} (o : C.Ok) {s : St} {held : List (Nat × Nat)} (i : Inv C s held) (e : Env) (R k n : Nat) :
    ∃ h r, heapCall C s e R (.align k n) = .ok ({ s with heap := h }, r) ∧ r.barriers = 1 ∧ Inv C { s with heap := h } (after.got r n held) := by
  refine heapCall_alloc o i e R (req := n) trivial (fun h q es => ?_) (fun _ _ _ => rfl)
  simp only [Dl.step] at es
  split at es
  · exact grant_live es
  · exact grant_live es

/-! ## Rounding of alignments -/

theorem double_ok {al : Nat} (hal : al ≤ 2 ^ 63) : ∀ n j, j + n = 64 → 1 ≤ n → (∃ m, j ≤ m ∧ m ≤ 63 ∧ double al n (2 ^ j) = .ok (2 ^ m) ∧ al ≤ 2 ^ m ∧ ∀ i, j ≤ i → al ≤ 2 ^ i → m ≤ i) := by
  intro n
  induction n with
  | zero => intro j _ h; omega
  | succ n ih =>
    intro j hj _
    unfold double
    by_cases hlt : 2 ^ j < al
    · rw [if_pos hlt]
      have hj63 : j < 63 := by
        by_contra hc
        have : 2 ^ 63 ≤ 2 ^ j := Nat.pow_le_pow_right (by omega) (by omega)
        omega
      have e : 2 * 2 ^ j % 2 ^ 64 = 2 ^ (j + 1) := by
        rw [← Nat.pow_succ', Nat.mod_eq_of_lt (Nat.pow_lt_pow_right (by omega) (by omega))]
      rw [e]
      obtain ⟨m, h1, h2, h3, h4, h5⟩ := ih (j + 1) (by omega) (by omega)
      refine ⟨m, by omega, h2, h3, h4, ?_⟩
      intro i hi hali
      apply h5 i _ hali
      by_contra hc
      have : i = j := by omega
      subst this
      omega
    · rw [if_neg hlt]
      exact ⟨j, by omega, by omega, rfl, by omega, fun i hi _ => hi⟩

theorem double_fuel {al n m a r : Nat} (h : double al n a = .ok r) (hm : n ≤ m) : double al m a = .ok r := by
  induction n generalizing m a with
  | zero => cases h
  | succ n ih =>
    obtain ⟨m, rfl⟩ : ∃ k, m = k + 1 := ⟨m - 1, by omega⟩
    unfold double at h ⊢
    split
    · rename_i hc
      rw [if_pos hc] at h
      exact ih h (by omega)
    · rename_i hc
      rw [if_neg hc] at h
      exact h

theorem and_pred_pow {k : Nat} : 2 ^ k &&& (2 ^ k - 1) = 0 := by
  rw [Nat.and_two_pow_sub_one_eq_mod, Nat.mod_self]

/-- a positive number `a` with `a & (a-1) = 0` is a power of two -/
theorem pow_of_and {a : Nat} (ha : a ≠ 0) (h : a &&& (a - 1) = 0) : a = 2 ^ a.log2 := by
  have h1 := Nat.log2_self_le ha
  by_contra hne
  have hlt : 2 ^ a.log2 < a := by omega
  have hup : a < 2 ^ (a.log2 + 1) := Nat.lt_log2_self
  have b1 : a.testBit a.log2 = true := Nat.testBit_log2 ha
  have b2 : (a - 1).testBit a.log2 = true := by
    have hl : (a - 1).log2 = a.log2 := by
      rw [Nat.log2_eq_iff (by omega)]
      omega
    rw [← hl]
    exact Nat.testBit_log2 (by omega)
  have : (a &&& (a - 1)).testBit a.log2 = true := by rw [Nat.testBit_and, b1, b2]; rfl
  rw [h] at this
  simp at this

/-- the alignment used is the least power of two, at least 32, that is not less than the one asked for -/
theorem roundAl_ok {al : Nat} (h : al ≤ 2 ^ 63) : ∃ m, 5 ≤ m ∧ m ≤ 63 ∧ roundAl al = .ok (2 ^ m) ∧ al ≤ 2 ^ m ∧ ∀ i, 5 ≤ i → al ≤ 2 ^ i → m ≤ i := by
  unfold roundAl
  simp only
  generalize ha : (if al < 32 then 32 else al) = a
  have ha1 : 32 ≤ a := by split at ha <;> omega
  have ha2 : al ≤ a := by split at ha <;> omega
  have ha3 : ∀ i, 5 ≤ i → al ≤ 2 ^ i → a ≤ 2 ^ i := by
    intro i hi h'
    have : 2 ^ 5 ≤ 2 ^ i := Nat.pow_le_pow_right (by omega) hi
    split at ha <;> omega
  have ha4 : a ≤ 2 ^ 63 := by split at ha <;> omega
  by_cases hp : a &&& (a - 1) ≠ 0
  · rw [if_pos hp]
    obtain ⟨m, h1, h2, h3, h4, h5⟩ := double_ok ha4 59 5 (by omega) (by omega)
    exact ⟨m, h1, h2, double_fuel h3 (by omega), by omega, fun i hi h' => h5 i hi (ha3 i hi h')⟩
  · rw [if_neg hp]
    have hpow := pow_of_and (by omega) (by omega : a &&& (a - 1) = 0)
    refine ⟨a.log2, ?_, ?_, by rw [← hpow], by omega, ?_⟩
    · have : 5 ≤ a.log2 := (Nat.le_log2 (by omega)).2 (by omega)
      exact this
    · by_contra hc
      have : 2 ^ 64 ≤ 2 ^ a.log2 := Nat.pow_le_pow_right (by omega) (by omega)
      omega
    · intro i hi h'
      have := ha3 i hi h'
      rw [hpow] at this
      exact (Nat.pow_le_pow_iff_right (by omega)).1 this

theorem align_all {C : Cfg} (o : C.Ok) {s : St} {held : List (Nat × Nat)} (i : Inv C s held) (e : Env) {al : Nat} (hal : al ≤ 2 ^ 63) (n : Nat) :
    ∃ h r, align C s e al n = .ok ({ s with heap := h }, r) ∧ r.barriers = 1 ∧ Inv C { s with heap := h } (after.got r n held) := by
  unfold align
  split
  · exact malloc_ok o i e n n
  · obtain ⟨m, _, _, h3, _⟩ := roundAl_ok hal
    rw [h3]
    exact align_ok o i e _ _ n

/-! ## `shmem_free` -/

theorem filter_blocks {held : List (Nat × Nat)} {p : Nat} (hn : (held.map Prod.fst).Nodup) : ((held.filter (fun x => decide (x.1 ≠ p))).map Prod.fst).Nodup :=
  hn.sublist ((List.filter_sublist (l := held)).map _)

theorem mem_filter_ne {held : List (Nat × Nat)} {p : Nat} {x : Nat × Nat} : x ∈ held.filter (fun x => decide (x.1 ≠ p)) ↔ x ∈ held ∧ x.1 ≠ p := by
  rw [List.mem_filter, decide_eq_true_eq]

theorem erase_gone {l : List (Nat × Nat)} {p n m : Nat} (hn : (l.map Prod.fst).Nodup) (h : (p, n) ∈ l) : (p, m) ∉ l.erase (p, n) := by
  intro hm
  have h1 := List.mem_of_mem_erase hm
  have h2 := List.inj_on_of_nodup_map hn h1 h rfl
  injection h2 with _ h2
  subst h2
  have hl : l.Nodup := List.Nodup.of_map _ hn
  exact (List.Nodup.not_mem_erase hl) hm

/-- `free` of a heap block in the part of the heap that is accepted -/
theorem free_heap {C : Cfg} (o : C.Ok) {s : St} {held : List (Nat × Nat)} (i : Inv C s held) (e : Env) {q n : Nat} (hq : (q, n) ∈ s.heap.live)
    (ha : accepted C.base C.k C.S (C.a0 + q) = true) :
    ∃ h, free C s e (C.a0 + q) = .ok ({ s with heap := h }, ⟨.null, 1⟩) ∧ h.live = s.heap.live.erase (q, n) ∧
      Inv C { s with heap := h } (held.filter (fun x => decide (x.1 ≠ C.a0 + q))) := by
  obtain ⟨h, u, es⟩ := Dl.C70_total o.1.base16 (Ok.dvd o) (by have := Ok.lt o; omega) i.reach e.os (.free q) ⟨n, hq⟩
  have hlk := lookup_of_mem (live_nodup o i.reach) hq
  have hl : h.live = s.heap.live.erase (q, n) := by
    simp only [Dl.step, hlk] at es
    cases hf : Dl.free s.heap.heap s.heap.bins q with
    | none => rw [hf] at es; cases es
    | some x =>
      rw [hf] at es
      simp only [Option.map_some, Option.some.injEq, Prod.mk.injEq] at es
      rw [← es.1]
  refine ⟨h, ?_, hl, ?_⟩
  · unfold free
    rw [if_pos ha, block_some hq]
    simp only
    rw [show C.a0 = C.base + 960 from rfl, es]
  · have gone : ∀ m, (q, m) ∉ h.live := by
      intro m hm
      rw [hl] at hm
      exact erase_gone (live_nodup o i.reach) hq hm
    refine i.heapStep o es ?_ (fun q' n' h' => .inl (by rw [hl] at h'; exact List.mem_of_mem_erase h')) ?_ (filter_blocks i.nodup)
    rotate_left
    · intro x hx
      by_cases he : x.1 = C.a0 + q
      · exact .inr ⟨q, n, he, hq, gone⟩
      · exact .inl (List.mem_map_of_mem (mem_filter_ne.2 ⟨hx, he⟩))
    intro x hx
    obtain ⟨hx, hne⟩ := mem_filter_ne.1 hx
    rcases i.blocks x hx with ⟨q', h1, h2⟩ | h'
    · refine .inl ⟨q', h1, ?_⟩
      show _ ∈ h.live
      rw [hl]
      exact (List.mem_erase_of_ne (by intro he; injection he with he _; omega)).2 h2
    · exact .inr h'

/-- `free` of an address that is neither in the accepted part of the heap nor in a space -/
theorem free_none {C : Cfg} {s : St} {held : List (Nat × Nat)} (i : Inv C s held) (e : Env) {p : Nat} (hp : p < 2 ^ 63)
    (ha : accepted C.base C.k C.S p = false) (hs : ∀ t ∈ s.spaces, ¬(t.base ≤ p ∧ p < t.base + t.size)) :
    free C s e p = .ok (s, ⟨.null, 1⟩) := by
  unfold free
  rw [if_neg (by rw [ha]; decide), find_none i hp hs]

/-- `free` of a block of a space -/
theorem free_space {C : Cfg} (o : C.Ok) {s : St} {held : List (Nat × Nat)} (i : Inv C s held) (e : Env) {t : Sp} (ht : t ∈ s.spaces) {p n : Nat} (hp : (p, n) ∈ t.live) :
    ∃ pool, MemPool.free t.pool p = .ok pool ∧ MemPool.Hist t.base t.size (2 ^ C.k) pool (t.live.erase (p, n)) ∧
      free C s e p = .ok ({ s with spaces := setPool s.spaces t.id pool (t.live.erase (p, n)) }, ⟨.null, 1⟩) ∧
      Inv C { s with spaces := setPool s.spaces t.id pool (t.live.erase (p, n)) } (held.filter (fun x => decide (x.1 ≠ p))) := by
  have hin := (i.sp t ht).inside hp
  have htop := (i.sp t ht).top
  obtain ⟨pool, h1, h2, _⟩ := MemPool.C08_free_exact (i.sp t ht).region (i.sp t ht).hist hp
  refine ⟨pool, h1, h2, ?_, ?_⟩
  · have hacc : accepted C.base C.k C.S p = false := by
      apply not_accepted o (by omega)
      have := i.heapApart t ht
      unfold Apart at this
      omega
    unfold free
    rw [if_neg (by rw [hacc]; decide), find_space i ht hin.2.1 (by omega)]
    simp only [spaceFree, h1, Res.bind_ok, drop, lookup_of_mem (i.sp t ht).nodup hp]
  · refine i.pool o ht h2 ?_ ?_ ?_ (filter_blocks i.nodup)
    rotate_left
    · intro p' n' h'
      have hne : p' ≠ p := by
        rintro rfl
        exact erase_gone (i.sp t ht).nodup hp h'
      have h'' := List.mem_of_mem_erase h'
      have hin' := (i.sp t ht).inside h''
      rcases i.full (p', n') (.inr ⟨t, ht, n', h'', Nat.le_refl _⟩) with h3 | h3
      · obtain ⟨x, hx, hxe⟩ := List.mem_map.1 h3
        simp only at hxe
        subst hxe
        exact List.mem_map_of_mem (mem_filter_ne.2 ⟨hx, hne⟩)
      · have := i.heapApart t ht
        unfold Apart at this
        simp only at h3
        omega
    · intro x hx hnt
      refine List.mem_map_of_mem (mem_filter_ne.2 ⟨hx, ?_⟩)
      intro he
      exact hnt n (by rw [he]; exact hp)
    intro x hx
    obtain ⟨hx, hne⟩ := mem_filter_ne.1 hx
    refine .inl ⟨i.blocks x hx, ?_⟩
    intro m hm
    exact (List.mem_erase_of_ne (by intro he; injection he with he _; omega)).2 hm

theorem filter_id {held : List (Nat × Nat)} {p : Nat} (h : p ∉ held.map Prod.fst) : held.filter (fun x => decide (x.1 ≠ p)) = held := by
  rw [List.filter_eq_self]
  intro x hx
  rw [decide_eq_true_eq]
  intro e
  exact h (List.mem_map.2 ⟨x, hx, e⟩)

/-- every legal `free` works -/
theorem free_all {C : Cfg} (o : C.Ok) {s : St} {held : List (Nat × Nat)} (i : Inv C s held) (e : Env) {p : Nat} (hl : Legal.freed C s held p) :
    ∃ s', free C s e p = .ok (s', ⟨.null, 1⟩) ∧ Inv C s' (held.filter (fun x => decide (x.1 ≠ p))) := by
  obtain ⟨hp, hm | ⟨h1, h2⟩⟩ := hl
  · obtain ⟨x, hx, rfl⟩ := List.mem_map.1 hm
    rcases i.blocks x hx with ⟨q, h1, h2⟩ | ⟨t, ht, n, h1, h2⟩
    · rw [h1]
      cases ha : accepted C.base C.k C.S (C.a0 + q) with
      | true =>
        obtain ⟨h, h3, _, h4⟩ := free_heap o i e h2 ha
        exact ⟨_, h3, h4⟩
      | false =>
        refine ⟨s, free_none i e (by omega) ha ?_, ⟨i.reach, i.sp, i.ids, i.heapApart, i.apart, fun x hx => i.blocks x (mem_filter_ne.1 hx).1, ?_, filter_blocks i.nodup⟩⟩
        · intro t ht hc
          have a := live_in o i.reach h2
          have b := i.heapApart t ht
          unfold Apart at b
          omega
        · intro y hy
          rcases i.full y hy with h | h
          · obtain ⟨z, hz, hze⟩ := List.mem_map.1 h
            by_cases he : z.1 = C.a0 + q
            · have a := live_in o i.reach h2
              have b : ¬accepted C.base C.k C.S (C.a0 + q) = true := by rw [ha]; decide
              rw [Heap.accepted_iff o.1 (by omega)] at b
              right
              omega
            · exact .inl (by rw [← hze]; exact List.mem_map_of_mem (mem_filter_ne.2 ⟨hz, he⟩))
          · exact .inr h
    · obtain ⟨pool, _, _, h3, h4⟩ := free_space o i e ht h1
      exact ⟨_, h3, h4⟩
  · refine ⟨s, free_none i e hp (not_accepted o hp h1) h2, ?_⟩
    rw [filter_id]
    · exact i
    · intro hm
      obtain ⟨x, hx, rfl⟩ := List.mem_map.1 hm
      rcases In.where_ o i (i.blocks x hx) with h | ⟨t, ht, h3, h4, _⟩
      · exact h1 ⟨h.1, by omega⟩
      · exact h2 t ht ⟨h3, h4⟩

/-! ## `shmem_realloc` -/

/-- `realloc` of a heap block -/
theorem realloc_heap {C : Cfg} (o : C.Ok) {s : St} {held : List (Nat × Nat)} (i : Inv C s held) (e : Env) {q m : Nat} (hq : (q, m) ∈ s.heap.live) (n : Nat) :
    ∃ h r, realloc C s e (C.a0 + q) n = .ok ({ s with heap := h }, r) ∧ r.barriers = 1 ∧
      Inv C { s with heap := h } (after.moved held r (C.a0 + q) n) := by
  have hpos : C.a0 + q ≠ 0 := by unfold Cfg.a0; omega
  unfold realloc
  rw [if_neg (by omega), if_neg hpos]
  by_cases hmax : maxRequest ≤ n
  · rw [if_pos hmax]
    exact ⟨s.heap, _, rfl, rfl, i⟩
  rw [if_neg hmax, block_some hq]
  simp only
  obtain ⟨h, u, es⟩ := Dl.C70_total o.1.base16 (Ok.dvd o) (by have := Ok.lt o; omega) i.reach e.os (.realloc q n) ⟨m, hq⟩
  have es' : Dl.step C.a0 s.heap e.os (.realloc q n) = some (h, u) := es
  refine ⟨h, ⟨C.ptr e.os n u, 1⟩, by unfold heapCall; rw [es'], rfl, ?_⟩
  have hlk := lookup_of_mem (live_nodup o i.reach) hq
  have hr' : Dl.Reach C.a0 (trueSize C.k C.S) h := .step i.reach es'
  have other : ∀ {q' n' : Nat}, (q', n') ∈ s.heap.live → C.a0 + q' ≠ C.a0 + q → (q', n') ∈ s.heap.live.erase (q, m) := by
    intro q' n' h1 h2
    exact (List.mem_erase_of_ne (by intro he; injection he with he _; omega)).2 h1
  simp only [Dl.step, hlk] at es
  cases hd : Dl.realloc s.heap.heap s.heap.bins q n e.os with
  | none => rw [hd] at es; cases es
  | some y =>
    rw [hd] at es
    obtain ⟨y, w⟩ := y
    cases w with
    | some w =>
      simp only [Option.some.injEq, Prod.mk.injEq] at es
      obtain ⟨rfl, rfl⟩ := es
      show Inv C _ ((C.a0 + w, n) :: held.filter (fun x => decide (x.1 ≠ C.a0 + q)))
      refine i.heapStep o es' ?_ ?_ ?_ ?_
      rotate_left
      · intro q' n' h'
        rcases List.mem_cons.1 h' with h' | h'
        · injection h' with h1 h2
          exact .inr (by rw [h1]; exact List.mem_cons_self ..)
        · exact .inl (List.mem_of_mem_erase h')
      · intro x hx
        by_cases he : x.1 = C.a0 + q
        · by_cases hw : w = q
          · exact .inl (by rw [he, hw]; exact List.mem_cons_self ..)
          · refine .inr ⟨q, m, he, hq, ?_⟩
            intro m' hm'
            rcases List.mem_cons.1 hm' with h' | h'
            · injection h' with h1 _
              exact hw h1.symm
            · exact erase_gone (live_nodup o i.reach) hq h'
        · exact .inl (List.mem_map_of_mem (List.mem_cons_of_mem _ (mem_filter_ne.2 ⟨hx, he⟩)))
      rotate_left
      · intro x hx
        rcases List.mem_cons.1 hx with rfl | hx
        · exact .inl ⟨w, rfl, List.mem_cons_self ..⟩
        · obtain ⟨hx, hne⟩ := mem_filter_ne.1 hx
          rcases i.blocks x hx with ⟨q', h1, h2⟩ | h'
          · exact .inl ⟨q', h1, List.mem_cons_of_mem _ (other h2 (by omega))⟩
          · exact .inr h'
      · rw [List.map_cons, List.nodup_cons]
        refine ⟨?_, filter_blocks i.nodup⟩
        intro hm
        obtain ⟨x, hx, hxe⟩ := List.mem_map.1 hm
        obtain ⟨hx, hne⟩ := mem_filter_ne.1 hx
        exact fresh_heap o i hr' rfl (i.blocks x hx) (fun q' h1 h2 => other h2 (by omega)) hxe
    | none =>
      simp only [Option.some.injEq, Prod.mk.injEq] at es
      obtain ⟨rfl, rfl⟩ := es
      cases hos : e.os with
      | false =>
        have : C.ptr false n none = .null := by unfold Cfg.ptr; rw [if_neg (by simp)]
        rw [this]
        show Inv C _ held
        refine i.heapStep o (by rw [hos] at es'; exact es') ?_ (fun q' n' h' => .inl (by simpa using h')) (fun x hx => .inl (List.mem_map_of_mem hx)) i.nodup
        intro x hx
        rcases i.blocks x hx with ⟨q', h1, h2⟩ | h'
        · refine .inl ⟨q', h1, ?_⟩
          simpa using h2
        · exact .inr h'
      | true =>
        have : C.ptr true n none = .system := by unfold Cfg.ptr; rw [if_pos ⟨rfl, by omega⟩]
        rw [this]
        show Inv C _ (held.filter (fun x => decide (x.1 ≠ C.a0 + q)))
        have hlt : n < maxRequest := by omega
        refine i.heapStep o (by rw [hos] at es'; exact es') ?_ (fun q' n' h' => .inl ?_) ?_ (filter_blocks i.nodup)
        rotate_left
        · simp only [hlt, Bool.and_self, decide_true, if_true] at h'
          exact List.mem_of_mem_erase h'
        · intro x hx
          by_cases he : x.1 = C.a0 + q
          · refine .inr ⟨q, m, he, hq, ?_⟩
            intro m' hm'
            simp only [hlt, Bool.and_self, decide_true, if_true] at hm'
            exact erase_gone (live_nodup o i.reach) hq hm'
          · exact .inl (List.mem_map_of_mem (mem_filter_ne.2 ⟨hx, he⟩))
        intro x hx
        obtain ⟨hx, hne⟩ := mem_filter_ne.1 hx
        rcases i.blocks x hx with ⟨q', h1, h2⟩ | h'
        · refine .inl ⟨q', h1, ?_⟩
          have := other h2 (by omega)
          simpa [show n < maxRequest by omega] using this
        · exact .inr h'

theorem foreign_not {C : Cfg} {e : Env} {p : Nat} : foreign C e p = .ub ∨ foreign C e p = .abort := by
  unfold foreign
  simp only
  split
  · exact .inl rfl
  · exact .inr rfl

/-- `realloc` of a block of a space -/
theorem realloc_space {C : Cfg} (o : C.Ok) {s : St} {held : List (Nat × Nat)} (i : Inv C s held) (e : Env) {t : Sp} (ht : t ∈ s.spaces) {p m : Nat} (hp : (p, m) ∈ t.live) {n : Nat}
    (hn : n < maxRequest) : realloc C s e p n = foreign C e p := by
  have hin := (i.sp t ht).inside hp
  have hpos := (i.sp t ht).pos
  unfold realloc
  rw [if_neg (by omega), if_neg (by omega), if_neg (by omega), block_none o i]
  have := i.heapApart t ht
  unfold Apart at this
  omega

/-! ## Spaces -/

/-- every block of a space is held -/
theorem Inv.spaceFull {C : Cfg} (o : C.Ok) {s : St} {held : List (Nat × Nat)} (i : Inv C s held) {t : Sp} (ht : t ∈ s.spaces) {p n : Nat} (h : (p, n) ∈ t.live) :
    p ∈ held.map Prod.fst := by
  have := Ok.lt o
  rcases i.full (p, n) (.inr ⟨t, ht, n, h, Nat.le_refl _⟩) with h3 | h3
  · exact h3
  · have a := i.heapApart t ht
    have b := (i.sp t ht).inside h
    unfold Apart at a
    simp only at h3
    omega

theorem create_ok {C : Cfg} (o : C.Ok) {s : St} {held : List (Nat × Nat)} (i : Inv C s held) (e : Env) {n : Nat} (h0 : 0 < n) (hp : Legal.placed C s e (C.spaceSize n))
    (hc : C.spaceSize n / 2 ^ C.k ≤ IntMax) :
    ∃ pool, create C s e n = .ok ({ s with spaces := s.spaces ++ [⟨e.handle, e.mem, C.spaceSize n, pool, []⟩] }, ⟨.at_ e.handle, 0⟩) ∧
      Inv C { s with spaces := s.spaces ++ [⟨e.handle, e.mem, C.spaceSize n, pool, []⟩] } held := by
  obtain ⟨p1, p2, p3, p4, p5⟩ := hp
  have hk := o.1.page'
  obtain ⟨pool, h1, -⟩ := MemPool.init_wf (base := e.mem) (size := C.spaceSize n) (k := C.k) (by omega) rfl hc (by omega)
  refine ⟨pool, ?_, ⟨i.reach, ?_, ?_, ?_, ?_, ?_, ?_, i.nodup⟩⟩
  · unfold create
    rw [if_neg (by omega), h1]
    rfl
  · intro t ht
    rcases List.mem_append.1 ht with ht | ht
    · exact i.sp t ht
    · obtain rfl := List.mem_singleton.1 ht
      exact ⟨.init h1, ⟨⟨C.k, by omega, rfl⟩, hc, by simp only; omega⟩, p1, p2⟩
  · simp only [List.map_append, List.map_cons, List.map_nil]
    rw [List.nodup_append]
    refine ⟨i.ids, by simp, ?_⟩
    intro a ha b hb e'
    rw [List.mem_singleton] at hb
    subst hb
    subst e'
    exact p3 ha
  · intro t ht
    rcases List.mem_append.1 ht with ht | ht
    · exact i.heapApart t ht
    · obtain rfl := List.mem_singleton.1 ht
      unfold Apart
      simp only
      omega
  · rw [List.pairwise_append]
    refine ⟨i.apart, List.pairwise_singleton _ _, ?_⟩
    intro a ha b hb
    obtain rfl := List.mem_singleton.1 hb
    have := p5 a ha
    unfold Apart
    simp only
    omega
  · intro x hx
    rcases i.blocks x hx with h | ⟨t, ht, h⟩
    · exact .inl h
    · exact .inr ⟨t, List.mem_append_left _ ht, h⟩
  · intro y hy
    rcases hy with h | ⟨t, ht, n', h, h'⟩
    · exact i.full y (.inl h)
    · rcases List.mem_append.1 ht with ht | ht
      · exact i.full y (.inr ⟨t, ht, n', h, h'⟩)
      · obtain rfl := List.mem_singleton.1 ht
        cases h

/-- `destroy` works exactly if the space has no blocks -/
theorem destroy_iff {C : Cfg} {s : St} {held : List (Nat × Nat)} (i : Inv C s held) {t : Sp} (ht : t ∈ s.spaces) :
    (t.live = [] → destroy s t.id = .ok ({ s with spaces := s.spaces.filter (fun u => u.id ≠ t.id) }, ⟨.null, 0⟩) ∧
      Inv C { s with spaces := s.spaces.filter (fun u => u.id ≠ t.id) } held) ∧
    (t.live ≠ [] → destroy s t.id = .abort) := by
  obtain ⟨a, b⟩ := MemPool.C08_all_freed (i.sp t ht).region (i.sp t ht).hist
  constructor
  · intro hl
    refine ⟨by unfold destroy; rw [find_id i ht]; simp only [(a hl).2.1, Res.bind_ok], i.reach, ?_, ?_, ?_, ?_, ?_, ?_, i.nodup⟩
    · intro u hu; exact i.sp u (List.mem_of_mem_filter hu)
    · exact i.ids.sublist ((List.filter_sublist).map _)
    · intro u hu; exact i.heapApart u (List.mem_of_mem_filter hu)
    · exact i.apart.filter _
    · intro x hx
      rcases i.blocks x hx with h | ⟨u, hu, n, h1, h2⟩
      · exact .inl h
      · refine .inr ⟨u, List.mem_filter.2 ⟨hu, ?_⟩, n, h1, h2⟩
        rw [decide_eq_true_eq]
        intro he
        have := i.id_inj hu ht he
        subst this
        rw [hl] at h1
        cases h1
    · intro y hy
      rcases hy with h | ⟨u, hu, n, h1, h2⟩
      · exact i.full y (.inl h)
      · exact i.full y (.inr ⟨u, List.mem_of_mem_filter hu, n, h1, h2⟩)
  · intro hl
    unfold destroy
    rw [find_id i ht]
    simp only [b hl]
    rfl

/-- allocation in a space: `sz` bytes are asked from the pool, `n` by the user -/
theorem spaceMalloc_ok {C : Cfg} (o : C.Ok) {s : St} {held : List (Nat × Nat)} (i : Inv C s held) {t : Sp} (ht : t ∈ s.spaces) {sz n : Nat} (hv : MemPool.Valid (2 ^ C.k) sz)
    (hn : n ≤ sz) : ∃ pool live r, spaceMalloc s t.id sz = .ok ({ s with spaces := setPool s.spaces t.id pool live }, r) ∧ r.barriers = 1 ∧
      MemPool.Hist t.base t.size (2 ^ C.k) pool live ∧
      ((∃ p, r.ptr = .at_ p ∧ live = (p, sz) :: t.live) ∨ (r.ptr = .null ∧ live = t.live)) ∧
      Inv C { s with spaces := setPool s.spaces t.id pool live } (after.got r n held) := by
  have hsp := i.sp t ht
  have hh : ∀ {p : MemPool.Pool} {q : Nat}, MemPool.alloc t.pool sz = .ok (p, some q) →
      ∃ pool live r, spaceMalloc s t.id sz = .ok ({ s with spaces := setPool s.spaces t.id pool live }, r) ∧ r.barriers = 1 ∧
      MemPool.Hist t.base t.size (2 ^ C.k) pool live ∧
      ((∃ p, r.ptr = .at_ p ∧ live = (p, sz) :: t.live) ∨ (r.ptr = .null ∧ live = t.live)) ∧
      Inv C { s with spaces := setPool s.spaces t.id pool live } (after.got r n held) := by
    intro p q ha
    have hi := MemPool.Hist.alloc hsp.hist hv ha
    refine ⟨p, (q, sz) :: t.live, ⟨.at_ q, 1⟩, ?_, rfl, hi, .inl ⟨q, rfl, rfl⟩, ?_⟩
    · unfold spaceMalloc
      rw [find_id i ht]
      simp only [ha, Res.bind_ok]
    · show Inv C _ ((q, n) :: held)
      have hnd := (MemPool.hist_inv hsp.region hi).nodup
      rw [List.map_cons, List.nodup_cons] at hnd
      have hin := (MemPool.C06_disjoint_in_bounds hsp.region hi).1 (q, sz) (List.mem_cons_self ..)
      have h1 := hv.1
      refine i.pool o ht hi ?_ ?_ (fun x hx _ => List.mem_map_of_mem (List.mem_cons_of_mem _ hx)) ?_
      rotate_left
      · intro p' n' h'
        rcases List.mem_cons.1 h' with h' | h'
        · injection h' with h' _
          rw [h']
          exact List.mem_cons_self ..
        · exact List.mem_cons_of_mem _ (i.spaceFull o ht h')
      rotate_left
      · intro x hx
        rcases List.mem_cons.1 hx with rfl | hx
        · exact .inr ⟨sz, List.mem_cons_self .., hn⟩
        · exact .inl ⟨i.blocks x hx, fun m hm => List.mem_cons_of_mem _ hm⟩
      · rw [List.map_cons, List.nodup_cons]
        refine ⟨?_, i.nodup⟩
        intro hm
        obtain ⟨x, hx, hxe⟩ := List.mem_map.1 hm
        rcases i.blocks x hx with ⟨q', h2, h3⟩ | ⟨u, hu, m, h2, h3⟩
        · have a := live_in o i.reach h3
          have b := i.heapApart t ht
          unfold Apart at b
          simp only at hin hxe
          omega
        · by_cases hne : u = t
          · subst hne
            exact hnd.1 (List.mem_map.2 ⟨_, h2, hxe⟩)
          · have a := (i.sp u hu).inside h2
            have b := i.spaces_apart hu ht hne
            unfold Apart at b
            simp only at hin hxe
            omega
  rcases MemPool.C07_first_fit hsp.region hsp.hist hv with ⟨p, f, ha, -⟩ | ⟨ha, -⟩
  · exact hh ha
  · refine ⟨t.pool, t.live, ⟨.null, 1⟩, ?_, rfl, hsp.hist, .inr ⟨rfl, rfl⟩, ?_⟩
    · unfold spaceMalloc
      rw [find_id i ht]
      simp only [ha, Res.bind_ok]
    · exact i.pool o ht hsp.hist (fun x hx => .inl ⟨i.blocks x hx, fun _ h => h⟩) (fun p n h => i.spaceFull o ht h) (fun x hx _ => List.mem_map_of_mem hx) i.nodup

end Verif.Mm
