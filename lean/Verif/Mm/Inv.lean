import Verif.Mm.Model
import Mathlib.Data.List.Nodup
/-!
# Invariant of the symmetric memory of a PE
-/
namespace Verif.Mm
open Verif.Heap (accepted trueSize heapSize maxRequest callocReq)

/-- The setup is as `Heap.Ok` says (C47), and the memory of the heap ends below 2^63. -/
def Cfg.Ok (C : Cfg) : Prop := Heap.Ok C.base C.k C.S ∧ 0 < C.base

/-- a space in order -/
structure SpOk (C : Cfg) (t : Sp) : Prop where
  hist : MemPool.Hist t.base t.size (2 ^ C.k) t.pool t.live
  region : MemPool.Region t.base t.size (2 ^ C.k)
  pos : 0 < t.base
  top : t.base + t.size ≤ 2 ^ 63

/-- `x` is a block of the heap or of a space -/
def In (C : Cfg) (s : St) (x : Nat × Nat) : Prop :=
  (∃ q, x.1 = C.a0 + q ∧ (q, x.2) ∈ s.heap.live) ∨ ∃ t ∈ s.spaces, ∃ n, (x.1, n) ∈ t.live ∧ x.2 ≤ n

/-- two objects do not overlap -/
def Apart (a n b m : Nat) : Prop := a + n ≤ b ∨ b + m ≤ a

/-- the invariant -/
structure Inv (C : Cfg) (s : St) (held : List (Nat × Nat)) : Prop where
  reach : Dl.Reach C.a0 (trueSize C.k C.S) s.heap
  sp : ∀ t ∈ s.spaces, SpOk C t
  ids : (s.spaces.map Sp.id).Nodup
  heapApart : ∀ t ∈ s.spaces, Apart t.base t.size C.base (trueSize C.k C.S)
  apart : s.spaces.Pairwise (fun a b => Apart a.base a.size b.base b.size)
  blocks : ∀ x ∈ held, In C s x
  full : ∀ y, In C s y → y.1 ∈ held.map Prod.fst ∨ C.base + heapSize C.k C.S ≤ y.1 ∧ y.1 < C.base + trueSize C.k C.S
  nodup : (held.map Prod.fst).Nodup

theorem Ok.dvd {C : Cfg} (o : C.Ok) : 16 ∣ trueSize C.k C.S := by
  have hs := Heap.sizes o.1
  have hp := Heap.page_16 o.1.page
  rw [hs.2.2.2.2]
  exact Nat.dvd_add (hp.trans hs.2.2.1) hp

theorem Ok.lt {C : Cfg} (o : C.Ok) : C.base + trueSize C.k C.S < 2 ^ 63 := by
  have hs := Heap.sizes o.1
  have := o.1.space
  omega

theorem Ok.ge {C : Cfg} (o : C.Ok) : heapSize C.k C.S ≤ trueSize C.k C.S := by
  have hs := Heap.sizes o.1
  omega

/-- blocks of the heap have different addresses -/
theorem live_nodup {C : Cfg} (o : C.Ok) {h : Dl.St} (r : Dl.Reach C.a0 (trueSize C.k C.S) h) : (h.live.map Prod.fst).Nodup := by
  have hr := (Dl.C70_refines o.1.base16 (Ok.dvd o) (by have := Ok.lt o; omega) r).1
  have i := Heap.inv_reach (show 16 ∣ C.base + 960 by have := o.1.base16; omega) (Ok.dvd o) hr
  have hp := Heap.users_sorted i.wf.good 0
  rw [List.Nodup, List.pairwise_map]
  have hq : (Heap.users 0 h.heap.chunks).Pairwise (fun x y => x.1 ≠ y.1) := by
    refine hp.imp ?_
    intro x y hxy
    have := Heap.need_fits x.2
    have := Heap.need_dvd x.2
    have : 0 < Heap.need x.2 := by unfold Heap.need; split <;> omega
    omega
  exact (List.Perm.pairwise_iff (fun h => Ne.symm h) i.held).2 hq

/-- where the blocks of the heap are -/
theorem live_in {C : Cfg} (o : C.Ok) {h : Dl.St} (r : Dl.Reach C.a0 (trueSize C.k C.S) h) {q n : Nat} (hq : (q, n) ∈ h.live) :
    C.base ≤ C.a0 + q ∧ C.a0 + q + n + 72 ≤ C.base + trueSize C.k C.S ∧ 16 ∣ C.a0 + q := by
  have hb := (Dl.C70_blocks o.1.base16 (Ok.dvd o) (by have := Ok.lt o; omega) r).2 (q, n) hq
  have := Heap.sizes o.1
  have := Heap.page_ge o.1.page
  unfold Cfg.a0
  simp only at hb
  omega

theorem live_apart {C : Cfg} (o : C.Ok) {h : Dl.St} (r : Dl.Reach C.a0 (trueSize C.k C.S) h) {q n q' n' : Nat} (hq : (q, n) ∈ h.live)
    (hq' : (q', n') ∈ h.live) (hne : q ≠ q') : Apart (C.a0 + q) n (C.a0 + q') n' := by
  have hb := (Dl.C70_blocks o.1.base16 (Ok.dvd o) (by have := Ok.lt o; omega) r).1
  have hs : Std.Symm (fun x y : Nat × Nat => Heap.Disjoint (C.base + 960 + x.1) x.2 (C.base + 960 + y.1) y.2) := ⟨fun x y h => by unfold Heap.Disjoint at *; omega⟩
  have := hb.forall hq hq' (by intro e; injection e with e1 e2; exact hne e1)
  exact this

/-- where the blocks of a space are -/
theorem SpOk.inside {C : Cfg} {t : Sp} (h : SpOk C t) {p n : Nat} (hp : (p, n) ∈ t.live) : 1 ≤ n ∧ t.base ≤ p ∧ p + n ≤ t.base + t.size := by
  have hi := (MemPool.C06_disjoint_in_bounds h.region h.hist).1 (p, n) hp
  have := ((MemPool.hist_inv h.region h.hist).sound (p, n) hp).1
  exact ⟨this, hi⟩

theorem SpOk.nodup {C : Cfg} {t : Sp} (h : SpOk C t) : (t.live.map Prod.fst).Nodup := (MemPool.hist_inv h.region h.hist).nodup

theorem SpOk.disj {C : Cfg} {t : Sp} (h : SpOk C t) {p n q m : Nat} (hp : (p, n) ∈ t.live) (hq : (q, m) ∈ t.live) (hne : p ≠ q) : Apart p n q m := by
  have hb := (MemPool.C06_disjoint_in_bounds h.region h.hist).2
  have hs : Std.Symm (fun x y : Nat × Nat => x.1 + x.2 ≤ y.1 ∨ y.1 + y.2 ≤ x.1) := ⟨fun x y h => by omega⟩
  exact hb.forall hp hq (by intro e; injection e with e1 e2; exact hne e1)

/-- two spaces at different places in the list do not overlap; the same space has the same handle -/
theorem Inv.spaces_apart {C : Cfg} {s : St} {held : List (Nat × Nat)} (i : Inv C s held) {t u : Sp} (ht : t ∈ s.spaces) (hu : u ∈ s.spaces) (hne : t ≠ u) :
    Apart t.base t.size u.base u.size := by
  have hs : Std.Symm (fun a b : Sp => Apart a.base a.size b.base b.size) := ⟨fun x y h => by unfold Apart at *; omega⟩
  exact i.apart.forall ht hu hne

theorem Inv.id_inj {C : Cfg} {s : St} {held : List (Nat × Nat)} (i : Inv C s held) {t u : Sp} (ht : t ∈ s.spaces) (hu : u ∈ s.spaces) (he : t.id = u.id) : t = u :=
  List.inj_on_of_nodup_map i.ids ht hu he

/-- where a block is: in the heap's memory, or in a space -/
theorem In.where_ {C : Cfg} (o : C.Ok) {s : St} {held : List (Nat × Nat)} (i : Inv C s held) {x : Nat × Nat} (h : In C s x) :
    (C.base ≤ x.1 ∧ x.1 + x.2 + 72 ≤ C.base + trueSize C.k C.S) ∨ ∃ t ∈ s.spaces, t.base ≤ x.1 ∧ x.1 < t.base + t.size ∧ x.1 + x.2 ≤ t.base + t.size := by
  rcases h with ⟨q, h1, h2⟩ | ⟨t, ht, n, h1, h2⟩
  · have := live_in o i.reach h2
    left
    omega
  · have := (i.sp t ht).inside h1
    exact .inr ⟨t, ht, by omega, by omega, by omega⟩

/-- different blocks do not overlap -/
theorem In.disj {C : Cfg} (o : C.Ok) {s : St} {held : List (Nat × Nat)} (i : Inv C s held) {x y : Nat × Nat} (hx : In C s x) (hy : In C s y) (hne : x.1 ≠ y.1) :
    Apart x.1 x.2 y.1 y.2 := by
  have key : ∀ {q : Nat} {x : Nat × Nat} {t : Sp} {p n : Nat}, x.1 = C.a0 + q → (q, x.2) ∈ s.heap.live → t ∈ s.spaces → (p, n) ∈ t.live → Apart x.1 x.2 p n := by
    intro q x t p n h1 h2 ht h3
    have a := live_in o i.reach h2
    have b := (i.sp t ht).inside h3
    have c := i.heapApart t ht
    unfold Apart at *
    omega
  rcases hx with ⟨q, h1, h2⟩ | ⟨t, ht, n, h1, h2⟩ <;> rcases hy with ⟨q', h3, h4⟩ | ⟨u, hu, m, h3, h4⟩
  · have := live_apart o i.reach h2 h4 (by omega)
    rw [h1, h3]
    exact this
  · have := key h1 h2 hu h3
    unfold Apart at *
    omega
  · have := key h3 h4 ht h1
    unfold Apart at *
    omega
  · by_cases he : t = u
    · subst he
      have := (i.sp t ht).disj h1 h3 hne
      unfold Apart at *
      omega
    · have := i.spaces_apart ht hu he
      have a := (i.sp t ht).inside h1
      have b := (i.sp u hu).inside h3
      unfold Apart at *
      omega

/-! ## Range checks -/

theorem hasB_iff {C : Cfg} {t : Sp} (h : SpOk C t) {p : Nat} (hp : p < 2 ^ 63) : t.hasB p = true ↔ t.base ≤ p ∧ p < t.base + t.size := by
  have ht := h.top
  by_cases hz : t.size = 0
  · unfold Sp.hasB Sobj.inRange
    simp only [hz, Bool.and_eq_true, decide_eq_true_eq]
    constructor
    · intro h; omega
    · intro h; omega
  have h1 : (BitVec.ofNat 64 t.base).toInt = t.base := by
    rw [BitVec.toInt_ofNat', Int.bmod_eq_of_le] <;> omega
  have h2 : (BitVec.ofNat 64 p).toInt = p := by
    rw [BitVec.toInt_ofNat', Int.bmod_eq_of_le] <;> omega
  unfold Sp.hasB Sobj.inRange
  simp only [h1, h2, Bool.and_eq_true, decide_eq_true_eq]
  omega

/-- the space that `OSHMPI_free` finds -/
theorem find_space {C : Cfg} {s : St} {held : List (Nat × Nat)} (i : Inv C s held) {t : Sp} (ht : t ∈ s.spaces) {p : Nat} (h1 : t.base ≤ p) (h2 : p < t.base + t.size) :
    s.spaces.find? (fun t => t.hasB p) = some t := by
  have hp : p < 2 ^ 63 := by have := (i.sp t ht).top; omega
  have hb : t.hasB p = true := (hasB_iff (i.sp t ht) hp).2 ⟨h1, h2⟩
  cases hf : s.spaces.find? (fun t => t.hasB p) with
  | none =>
    rw [List.find?_eq_none] at hf
    exact absurd hb (hf t ht)
  | some u =>
    have hu := List.mem_of_find?_eq_some hf
    have hub : u.hasB p = true := List.find?_some (p := fun t : Sp => t.hasB p) hf
    have := (hasB_iff (i.sp u hu) hp).1 hub
    by_cases he : t = u
    · rw [he]
    · have := i.spaces_apart ht hu he
      unfold Apart at this
      omega

theorem find_none {C : Cfg} {s : St} {held : List (Nat × Nat)} (i : Inv C s held) {p : Nat} (hp : p < 2 ^ 63) (h : ∀ t ∈ s.spaces, ¬(t.base ≤ p ∧ p < t.base + t.size)) :
    s.spaces.find? (fun t => t.hasB p) = none := by
  rw [List.find?_eq_none]
  intro t ht hb
  exact h t ht ((hasB_iff (i.sp t ht) hp).1 hb)

theorem find_id {C : Cfg} {s : St} {held : List (Nat × Nat)} (i : Inv C s held) {t : Sp} (ht : t ∈ s.spaces) : s.spaces.find? (fun u => u.id = t.id) = some t := by
  cases hf : s.spaces.find? (fun u => decide (u.id = t.id)) with
  | none =>
    rw [List.find?_eq_none] at hf
    exact absurd (decide_eq_true rfl) (hf t ht)
  | some u =>
    have hu := List.mem_of_find?_eq_some hf
    have hub := List.find?_some hf
    simp only [decide_eq_true_eq] at hub
    rw [i.id_inj hu ht hub]

theorem lookup_of_mem {l : List (Nat × Nat)} {p n : Nat} (hn : (l.map Prod.fst).Nodup) (h : (p, n) ∈ l) : l.lookup p = some n := by
  obtain ⟨m, hm⟩ := Dl.mem_lookup h
  have := List.inj_on_of_nodup_map hn (Heap.lookup_mem hm) h rfl
  injection this with _ e
  rw [hm, e]

/-- a heap block is found by its pointer -/
theorem block_some {C : Cfg} {s : St} {q n : Nat} (h : (q, n) ∈ s.heap.live) : C.block s (C.a0 + q) = some q := by
  obtain ⟨m, hm⟩ := Dl.mem_lookup h
  unfold Cfg.block
  rw [show C.a0 + q - C.a0 = q by omega, if_pos ⟨by omega, by rw [hm]; rfl⟩]

theorem block_mem {C : Cfg} {s : St} {p off : Nat} (h : C.block s p = some off) : p = C.a0 + off ∧ ∃ n, (off, n) ∈ s.heap.live := by
  unfold Cfg.block at h
  split at h
  · rename_i hc
    injection h with h
    subst h
    obtain ⟨m, hm⟩ := Option.isSome_iff_exists.1 hc.2
    exact ⟨by omega, m, Heap.lookup_mem hm⟩
  · cases h

/-- a pointer outside the heap's memory is no block of the heap -/
theorem block_none {C : Cfg} (o : C.Ok) {s : St} {held : List (Nat × Nat)} (i : Inv C s held) {p : Nat} (h : ¬(C.base ≤ p ∧ p < C.base + trueSize C.k C.S)) : C.block s p = none := by
  cases hb : C.block s p with
  | none => rfl
  | some off =>
    obtain ⟨rfl, n, hn⟩ := block_mem hb
    have := live_in o i.reach hn
    omega

theorem not_accepted {C : Cfg} (o : C.Ok) {p : Nat} (hp : p < 2 ^ 63) (h : ¬(C.base ≤ p ∧ p < C.base + trueSize C.k C.S)) : accepted C.base C.k C.S p = false := by
  have := Ok.ge o
  have : ¬accepted C.base C.k C.S p = true := by
    rw [Heap.accepted_iff o.1 hp]
    omega
  simpa using this

/-! ## Changes of one object -/

theorem mem_setPool {l : List Sp} {id : Nat} {pool : MemPool.Pool} {live : List (Nat × Nat)} {u : Sp} :
    u ∈ setPool l id pool live ↔ ∃ t ∈ l, u = if t.id = id then { t with pool := pool, live := live } else t := by
  unfold setPool
  rw [List.mem_map]
  exact ⟨fun ⟨t, h, e⟩ => ⟨t, h, e.symm⟩, fun ⟨t, h, e⟩ => ⟨t, h, e.symm⟩⟩

theorem setPool_ids {l : List Sp} {id : Nat} {pool : MemPool.Pool} {live : List (Nat × Nat)} : (setPool l id pool live).map Sp.id = l.map Sp.id := by
  unfold setPool
  rw [List.map_map]
  apply List.map_congr_left
  intro t _
  simp only [Function.comp_apply]
  split <;> rfl

theorem setPool_apart {l : List Sp} {id : Nat} {pool : MemPool.Pool} {live : List (Nat × Nat)} (h : l.Pairwise (fun a b => Apart a.base a.size b.base b.size)) :
    (setPool l id pool live).Pairwise (fun a b => Apart a.base a.size b.base b.size) := by
  unfold setPool
  rw [List.pairwise_map]
  refine h.imp ?_
  intro a b hab
  split <;> split <;> exact hab

/-- the invariant after a change of the pool of one space -/
theorem Inv.pool {C : Cfg} (o : C.Ok) {s : St} {held held' : List (Nat × Nat)} (i : Inv C s held) {t : Sp} (ht : t ∈ s.spaces) {pool : MemPool.Pool} {live : List (Nat × Nat)}
    (hh : MemPool.Hist t.base t.size (2 ^ C.k) pool live)
    (hb : ∀ x ∈ held', (In C s x ∧ ∀ n, (x.1, n) ∈ t.live → (x.1, n) ∈ live) ∨ ∃ n, (x.1, n) ∈ live ∧ x.2 ≤ n)
    (hf : ∀ p n, (p, n) ∈ live → p ∈ held'.map Prod.fst) (hg : ∀ x ∈ held, (∀ n, (x.1, n) ∉ t.live) → x.1 ∈ held'.map Prod.fst) (hn : (held'.map Prod.fst).Nodup) :
    Inv C { s with spaces := setPool s.spaces t.id pool live } held' := by
  have base : ∀ u ∈ setPool s.spaces t.id pool live, ∃ v ∈ s.spaces, u.base = v.base ∧ u.size = v.size ∧
      ((u.pool = pool ∧ u.live = live ∧ v = t) ∨ u = v) := by
    intro u hu
    obtain ⟨v, hv, rfl⟩ := mem_setPool.1 hu
    refine ⟨v, hv, ?_⟩
    split
    · rename_i he
      exact ⟨rfl, rfl, .inl ⟨rfl, rfl, i.id_inj hv ht he⟩⟩
    · exact ⟨rfl, rfl, .inr rfl⟩
  refine ⟨i.reach, ?_, ?_, ?_, setPool_apart i.apart, ?_, ?_, hn⟩
  · intro u hu
    obtain ⟨v, hv, e1, e2, h | rfl⟩ := base u hu
    · obtain ⟨h1, h2, rfl⟩ := h
      have := i.sp v hv
      exact ⟨by rw [e1, e2, h1, h2]; exact hh, by rw [e1, e2]; exact this.region, by rw [e1]; exact this.pos, by rw [e1, e2]; exact this.top⟩
    · exact i.sp u hv
  · show ((setPool s.spaces t.id pool live).map Sp.id).Nodup
    rw [setPool_ids]
    exact i.ids
  · intro u hu
    obtain ⟨v, hv, e1, e2, -⟩ := base u hu
    rw [e1, e2]
    exact i.heapApart v hv
  · intro x hx
    have tin : { t with pool := pool, live := live } ∈ setPool s.spaces t.id pool live := mem_setPool.2 ⟨t, ht, (if_pos rfl).symm⟩
    rcases hb x hx with ⟨h | ⟨u, hu, n, h1, h2⟩, h3⟩ | ⟨n, h1, h2⟩
    · exact .inl h
    · by_cases he : u.id = t.id
      · have := i.id_inj hu ht he
        subst this
        exact .inr ⟨_, tin, n, h3 n h1, h2⟩
      · exact .inr ⟨u, mem_setPool.2 ⟨u, hu, (if_neg he).symm⟩, n, h1, h2⟩
    · exact .inr ⟨_, tin, n, h1, h2⟩
  · have old : ∀ y, In C s y → (∀ n, (y.1, n) ∉ t.live) → y.1 ∈ held'.map Prod.fst ∨ C.base + heapSize C.k C.S ≤ y.1 ∧ y.1 < C.base + trueSize C.k C.S := by
      intro y hy hnt
      rcases i.full y hy with h | h
      · obtain ⟨x, hx, hxe⟩ := List.mem_map.1 h
        rw [← hxe]
        exact .inl (hg x hx (by rw [hxe]; exact hnt))
      · exact .inr h
    intro y hy
    rcases hy with ⟨q, h1, h2⟩ | ⟨u, hu, n, h1, h2⟩
    · refine old y (.inl ⟨q, h1, h2⟩) ?_
      intro n hn'
      have a := live_in o i.reach h2
      have b := (i.sp t ht).inside hn'
      have c := i.heapApart t ht
      unfold Apart at c
      omega
    · obtain ⟨v, hv, rfl⟩ := mem_setPool.1 hu
      by_cases he : v.id = t.id
      · rw [if_pos he] at h1
        exact .inl (hf _ _ h1)
      · rw [if_neg he] at h1
        refine old y (.inr ⟨v, hv, n, h1, h2⟩) ?_
        intro m hm
        have a := (i.sp v hv).inside h1
        have b := (i.sp t ht).inside hm
        have c := i.spaces_apart hv ht (by rintro rfl; exact he rfl)
        unfold Apart at c
        omega

/-- the invariant after a change of the heap -/
theorem Inv.heapStep {C : Cfg} (o : C.Ok) {s : St} {held held' : List (Nat × Nat)} (i : Inv C s held) {h : Dl.St} {os : Bool} {c : Heap.Call} {q : Option Nat}
    (e : Dl.step C.a0 s.heap os c = some (h, q)) (hb : ∀ x ∈ held', In C { s with heap := h } x)
    (hf : ∀ q n, (q, n) ∈ h.live → (q, n) ∈ s.heap.live ∨ C.a0 + q ∈ held'.map Prod.fst)
    (hg : ∀ x ∈ held, x.1 ∈ held'.map Prod.fst ∨ ∃ q n, x.1 = C.a0 + q ∧ (q, n) ∈ s.heap.live ∧ ∀ m, (q, m) ∉ h.live)
    (hn : (held'.map Prod.fst).Nodup) : Inv C { s with heap := h } held' := by
  refine ⟨.step i.reach e, i.sp, i.ids, i.heapApart, i.apart, hb, ?_, hn⟩
  intro y hy
  rcases hy with ⟨q, h1, h2⟩ | ⟨t, ht, n, h1, h2⟩
  · rcases hf _ _ h2 with h3 | h3
    · rcases i.full y (.inl ⟨q, h1, h3⟩) with h4 | h4
      · obtain ⟨x, hx, hxe⟩ := List.mem_map.1 h4
        rcases hg x hx with h5 | ⟨q', n, h5, h6, h7⟩
        · exact .inl (hxe ▸ h5)
        · have : q' = q := by omega
          subst this
          exact absurd h2 (h7 _)
      · exact .inr h4
    · exact .inl (h1 ▸ h3)
  · rcases i.full y (.inr ⟨t, ht, n, h1, h2⟩) with h4 | h4
    · obtain ⟨x, hx, hxe⟩ := List.mem_map.1 h4
      rcases hg x hx with h5 | ⟨q', m, h5, h6, h7⟩
      · exact .inl (hxe ▸ h5)
      · have a := live_in o i.reach h6
        have b := (i.sp t ht).inside h1
        have c := i.heapApart t ht
        unfold Apart at c
        omega
    · exact .inr h4

end Verif.Mm
