import Verif.Heap.Lemmas
import Mathlib.Data.Nat.ModEq
/-!
# Every heap operation keeps the heap well formed and changes exactly one block
-/
namespace Verif.Heap

/-- well-formed heap -/
structure WF (h : Heap) : Prop where
  good : ∀ c ∈ h.chunks, Good c
  merged : Merged h
  top : ∀ t, h.top = some t → 16 ∣ t ∧ 0 < t

theorem chain_of_nil {c : Chunk} {r : List Chunk} (h : (c :: r).IsChain NotBoth) : r.IsChain NotBoth := (List.isChain_cons.1 h).2

theorem merged_split {l r : List Chunk} {c : Chunk} {t : Option Nat} (h : Merged ⟨l ++ c :: r, t⟩) :
    l.IsChain NotBoth ∧ (c :: r).IsChain NotBoth ∧ r.IsChain NotBoth ∧ (t.isSome = true → ∀ x ∈ (c :: r).getLast?, x.use ≠ .free)
    ∧ (t.isSome = true → ∀ x ∈ r.getLast?, x.use ≠ .free) := by
  obtain ⟨h1, h2⟩ := h
  simp only at h1 h2
  obtain ⟨a, b, -, d⟩ := isChain_mid.1 h1
  have hl : t.isSome = true → ∀ x ∈ (c :: r).getLast?, x.use ≠ .free := by
    intro ht x hx
    apply h2 ht
    rw [List.getLast?_append]
    simp only [Option.mem_def] at hx ⊢
    rw [hx]; rfl
  refine ⟨a, List.isChain_cons.2 ⟨d, b⟩, b, hl, ?_⟩
  intro ht x hx
  apply hl ht
  cases r with
  | nil => simp at hx
  | cons e r => simpa using hx

theorem merged_user {l r : List Chunk} {s q : Nat} {t : Option Nat} (hl : l.IsChain NotBoth) (hr : r.IsChain NotBoth)
    (ht : t.isSome = true → ∀ x ∈ r.getLast?, x.use ≠ .free) : Merged ⟨l ++ ⟨s, .user q⟩ :: r, t⟩ := by
  refine ⟨isChain_mid.2 ⟨hl, hr, by simp [NotBoth], by simp [NotBoth]⟩, fun h x hx => ?_⟩
  simp only [List.getLast?_append, List.getLast?_cons] at hx
  cases hr' : r.getLast? with
  | none => rw [hr'] at hx; simp at hx; subst hx; simp
  | some y => rw [hr'] at hx; simp at hx; subst hx; exact ht h y hr'

theorem merged_carve {l r : List Chunk} {s nb q x : Nat} {t : Option Nat} (hl : l.IsChain NotBoth) (hr : (⟨x, .free⟩ :: r).IsChain NotBoth)
    (ht : t.isSome = true → ∀ y ∈ (⟨x, .free⟩ :: r : List Chunk).getLast?, y.use ≠ .free) : Merged ⟨l ++ carve s nb q ++ r, t⟩ := by
  have hr' := List.isChain_cons.1 hr
  have ht' : t.isSome = true → ∀ y ∈ r.getLast?, y.use ≠ .free := by
    intro h y hy
    apply ht h
    cases r with
    | nil => simp at hy
    | cons e r => simpa using hy
  unfold carve
  split
  · have := merged_user (s := s) (q := q) hl hr'.2 ht'
    simpa using this
  · have k1 : (⟨s - nb, .free⟩ :: r : List Chunk).IsChain NotBoth :=
      List.isChain_cons.2 ⟨fun y hy hb => hr'.1 y hy ⟨rfl, hb.2⟩, hr'.2⟩
    have k2 : t.isSome = true → ∀ y ∈ (⟨s - nb, .free⟩ :: r : List Chunk).getLast?, y.use ≠ .free := by
      intro h y hy
      cases r with
      | nil => exact absurd rfl (ht h ⟨x, .free⟩ (by simp))
      | cons e r => exact ht h y (by simpa using hy)
    have := merged_user (s := nb) (q := q) hl k1 k2
    simpa using this

theorem forall_mid {P : Chunk → Prop} {l m r : List Chunk} (hl : ∀ c ∈ l, P c) (hm : ∀ c ∈ m, P c) (hr : ∀ c ∈ r, P c) :
    ∀ c ∈ l ++ m ++ r, P c := by
  intro c hc
  rcases List.mem_append.1 hc with hc | hc
  · rcases List.mem_append.1 hc with hc | hc
    · exact hl c hc
    · exact hm c hc
  · exact hr c hc

theorem forall_split {P : Chunk → Prop} {l r : List Chunk} {c : Chunk} (h : ∀ x ∈ l ++ c :: r, P x) :
    (∀ x ∈ l, P x) ∧ P c ∧ ∀ x ∈ r, P x :=
  ⟨fun x hx => h x (by simp [hx]), h c (by simp), fun x hx => h x (by simp [hx])⟩

/-- a block taken from the heap -/
def added (o : Option Nat) (req : Nat) (us : List (Nat × Nat)) : List (Nat × Nat) := match o with
  | some q => (q, req) :: us
  | none => us

theorem malloc_spec {h h' : Heap} {req : Nat} {ch : Choice} {o : Option Nat} (w : WF h) (e : malloc h req ch = some (h', o)) :
    WF h' ∧ h'.cap = h.cap ∧ (users 0 h'.chunks).Perm (added o req (users 0 h.chunks)) := by
  cases ch with
  | chunk p =>
    simp only [malloc] at e
    split at e
    · split at e
      · rename_i l s r hf
        obtain ⟨hc, hp⟩ := find_some hf
        split at e
        · rename_i hn
          simp only [Option.some.injEq, Prod.mk.injEq] at e
          obtain ⟨rfl, rfl⟩ := e
          have hg := w.good
          rw [hc] at hg
          obtain ⟨gl, gc, gr⟩ := forall_split hg
          have hm := w.merged
          rw [show h = ⟨l ++ ⟨s, .free⟩ :: r, h.top⟩ by rw [← hc]] at hm
          obtain ⟨m1, m2, m3, m4, m5⟩ := merged_split hm
          refine ⟨⟨?_, ?_, w.top⟩, ?_, ?_⟩
          · exact forall_mid gl (carve_good gc.1 (need_dvd _) (le_refl _) hn) gr
          · exact merged_carve m1 m2 m4
          · simp only [Heap.cap, hc, total_append, carve_total hn, total]; omega
          · simp only [hc, users_append, added, carve_users, carve_total hn, users, total_append]
            simp only [Nat.zero_add] at hp
            simp only [Nat.zero_add, hp, List.append_assoc, List.singleton_append]
            exact List.perm_middle
        · cases e
      · cases e
      · cases e
      · cases e
    · cases e
  | top =>
    simp only [malloc] at e
    split at e
    · split at e
      · rename_i t ht
        split at e
        · rename_i hn
          simp only [Option.some.injEq, Prod.mk.injEq] at e
          obtain ⟨rfl, rfl⟩ := e
          have htop := w.top t ht
          have hm := w.merged
          refine ⟨⟨?_, ?_, ?_⟩, ?_, ?_⟩
          · intro c hc
            rcases List.mem_append.1 hc with hc | hc
            · exact w.good c hc
            · simp only [List.mem_singleton] at hc
              subst hc
              exact ⟨need_dvd _, by have := need_ge req; simp only; omega, fun r hr => by
                simp only [Use.user.injEq] at hr; subst hr; simp⟩
          · exact merged_user hm.1 (by simp) (by simp)
          · intro x hx
            have := need_dvd req
            simp only [Option.some.injEq] at hx
            omega
          · simp only [Heap.cap, total_append, total, ht, Option.getD_some]; omega
          · simp only [users_append, added, users, Nat.zero_add]
            exact List.perm_append_comm
        · cases e
      · cases e
    · cases e
  | outside seg =>
    cases seg with
    | false =>
      simp only [malloc, Option.some.injEq, Prod.mk.injEq] at e
      obtain ⟨rfl, rfl⟩ := e
      exact ⟨w, rfl, List.Perm.refl _⟩
    | true =>
      simp only [malloc] at e
      split at e
      · rename_i t ht
        simp only [Option.some.injEq, Prod.mk.injEq] at e
        obtain ⟨rfl, rfl⟩ := e
        obtain ⟨t16, tpos⟩ := w.top t ht
        refine ⟨⟨?_, ?_, by simp⟩, ?_, ?_⟩
        · intro c hc
          rcases List.mem_append.1 hc with hc | hc
          · exact w.good c hc
          · simp only [List.mem_singleton] at hc
            subst hc
            refine ⟨t16, tpos, fun r hr => ?_⟩
            simp only at hr
            split at hr <;> simp at hr
        · have hm := w.merged
          refine ⟨isChain_mid.2 ⟨hm.1, by simp, fun x hx hb => ?_, by simp⟩, by simp⟩
          exact hm.2 (by simp [ht]) x hx hb.1
        · simp [Heap.cap, total_append, total, ht]
        · simp only [users_append, added]
          split <;> simp [users]
      · simp only [Option.some.injEq, Prod.mk.injEq] at e
        obtain ⟨rfl, rfl⟩ := e
        exact ⟨w, rfl, List.Perm.refl _⟩

theorem dispose_top {l r : List Chunk} {s : Nat} {t : Option Nat} (hl : ∀ c ∈ l, Good c) (h16 : 16 ∣ s) (hs : 0 < s)
    (ht : ∀ x, t = some x → 16 ∣ x ∧ 0 < x) : ∀ x, (dispose l s r t).top = some x → 16 ∣ x ∧ 0 < x :=
  (fwd_top _ _ _ _).2 (back_good hl h16 hs).2.1 ht

theorem users_split {l r : List Chunk} {s q p : Nat} (hp : 0 + total l = p) :
    (users 0 (l ++ ⟨s, .user q⟩ :: r)).Perm ((p, q) :: (users 0 l ++ users (p + s) r)) := by
  simp only [users_append, users, Nat.zero_add] at *
  rw [hp]
  exact List.perm_middle

theorem users_erase {l r : List Chunk} {s q p : Nat} (hp : 0 + total l = p) :
    ((users 0 (l ++ ⟨s, .user q⟩ :: r)).erase (p, q)).Perm (users 0 l ++ users (p + s) r) := by
  have := (users_split (s := s) (q := q) (r := r) hp).erase (p, q)
  rwa [List.erase_cons_head] at this

theorem free_spec {h : Heap} {p q : Nat} (w : WF h) (hu : (p, q) ∈ users 0 h.chunks) :
    ∃ h', free h p = some h' ∧ WF h' ∧ h'.cap = h.cap ∧ (users 0 h'.chunks).Perm ((users 0 h.chunks).erase (p, q)) := by
  obtain ⟨l, s, r, hf⟩ := find_user w.good hu
  obtain ⟨hc, hp⟩ := find_some hf
  have hg := w.good
  rw [hc] at hg
  obtain ⟨gl, gc, gr⟩ := forall_split hg
  have hm := w.merged
  rw [show h = ⟨l ++ ⟨s, .user q⟩ :: r, h.top⟩ by rw [← hc]] at hm
  obtain ⟨m1, m2, m3, m4, m5⟩ := merged_split hm
  refine ⟨dispose l s r h.top, by simp only [free, hf], ⟨dispose_good gl gr gc.1 gc.2.1, dispose_merged m1 m3 m5,
    dispose_top gl gc.1 gc.2.1 w.top⟩, ?_, ?_⟩
  · rw [dispose_cap, Heap.cap, hc, total_append]; simp only [total]; omega
  · rw [dispose_users, hc]
    simp only [Nat.zero_add] at hp
    rw [hp]
    exact (users_erase (by simpa using hp)).symm

theorem shrink_spec {l r : List Chunk} {s nb req p q : Nat} {t : Option Nat} (w : WF ⟨l ++ ⟨s, .user q⟩ :: r, t⟩) (hp : 0 + total l = p)
    (h16 : 16 ∣ nb) (hn : need req ≤ nb) (hs : nb ≤ s) {k : Nat} :
    WF (if s - nb < minChunk + k then ⟨l ++ ⟨s, .user req⟩ :: r, t⟩ else dispose (l ++ [⟨nb, .user req⟩]) (s - nb) r t) ∧
    (if s - nb < minChunk + k then (⟨l ++ ⟨s, .user req⟩ :: r, t⟩ : Heap) else dispose (l ++ [⟨nb, .user req⟩]) (s - nb) r t).cap
      = (⟨l ++ ⟨s, .user q⟩ :: r, t⟩ : Heap).cap ∧
    (users 0 (if s - nb < minChunk + k then (⟨l ++ ⟨s, .user req⟩ :: r, t⟩ : Heap) else dispose (l ++ [⟨nb, .user req⟩]) (s - nb) r t).chunks).Perm
      ((p, req) :: (users 0 l ++ users (p + s) r)) := by
  obtain ⟨gl, gc, gr⟩ := forall_split w.good
  obtain ⟨m1, m2, m3, m4, m5⟩ := merged_split w.merged
  have hnr := need_ge req
  have gs : ∀ z, 16 ∣ z → nb ≤ z → Good ⟨z, .user req⟩ := fun z h1 h2 =>
    ⟨h1, by simp only; omega, fun r hr => by simp only [Use.user.injEq] at hr; subst hr; simp only; omega⟩
  by_cases hc : s - nb < minChunk + k
  · simp only [if_pos hc]
    refine ⟨⟨?_, merged_user m1 m3 m5, w.top⟩, by simp [Heap.cap, total_append, total], users_split hp⟩
    intro c hc
    rcases List.mem_append.1 hc with hc | hc
    · exact gl c hc
    · rcases List.mem_cons.1 hc with rfl | hc
      · exact gs _ gc.1 hs
      · exact gr c hc
  · simp only [if_neg hc]
    have hd : 16 ∣ s - nb := by have := gc.1; simp only at this; omega
    have hpos : 0 < s - nb := by simp only [minChunk] at hc; omega
    have gl' : ∀ c ∈ l ++ [⟨nb, .user req⟩], Good c := by
      intro c hc
      rcases List.mem_append.1 hc with hc | hc
      · exact gl c hc
      · simp only [List.mem_singleton] at hc; exact hc ▸ gs _ h16 (le_refl _)
    refine ⟨⟨dispose_good gl' gr hd hpos, dispose_merged (isChain_mid.2 ⟨m1, by simp, by simp [NotBoth], by simp⟩) m3 m5,
      dispose_top gl' hd hpos w.top⟩, ?_, ?_⟩
    · rw [dispose_cap]
      simp only [Heap.cap, total_append, total]
      omega
    · rw [dispose_users]
      have e1 : total (l ++ [⟨nb, .user req⟩]) + (s - nb) = p + s := by simp only [total_append, total]; omega
      rw [e1]
      have := users_split (s := nb) (q := req) (r := []) hp
      simp only [users, List.append_nil] at this
      exact (this.append_right _).trans (by simp)

theorem tryRealloc_spec {l r : List Chunk} {s req p q : Nat} {t : Option Nat} {h' : Heap} (w : WF ⟨l ++ ⟨s, .user q⟩ :: r, t⟩)
    (hp : 0 + total l = p) (e : tryRealloc l s (need req) req r t = some h') :
    WF h' ∧ h'.cap = (⟨l ++ ⟨s, .user q⟩ :: r, t⟩ : Heap).cap ∧
    (users 0 h'.chunks).Perm ((p, req) :: (users 0 l ++ users (p + s) r)) := by
  obtain ⟨gl, gc, gr⟩ := forall_split w.good
  obtain ⟨m1, m2, m3, m4, m5⟩ := merged_split w.merged
  have hnr := need_ge req
  unfold tryRealloc at e
  by_cases hs : need req ≤ s
  · rw [if_pos hs] at e
    injection e with e
    subst e
    exact shrink_spec (k := 0) w hp (need_dvd _) (le_refl _) hs
  · rw [if_neg hs] at e
    split at e
    · rename_i t
      split at e
      · rename_i hlt
        injection e with e
        subst e
        have ht := w.top t rfl
        refine ⟨⟨?_, merged_user m1 (by simp) (by simp), ?_⟩, ?_, ?_⟩
        · intro c hc
          rcases List.mem_append.1 hc with hc | hc
          · exact gl c hc
          · simp only [List.mem_singleton] at hc
            subst hc
            exact ⟨need_dvd _, by simp only; omega, fun r hr => by simp only [Use.user.injEq] at hr; subst hr; simp⟩
        · intro x hx
          have h1 := need_dvd req
          have h2 := gc.1
          simp only [Option.some.injEq] at hx h2
          omega
        · simp only [Heap.cap, total_append, total, Option.getD_some]; omega
        · have := users_split (s := need req) (q := req) (r := []) hp
          simpa [users] using this
      · cases e
    · cases e
    · rename_i n r'
      split at e
      · rename_i hle
        injection e with e
        subst e
        obtain ⟨gr1, gr2⟩ : Good ⟨n, .free⟩ ∧ ∀ c ∈ r', Good c := ⟨gr _ (by simp), fun c hc => gr c (by simp [hc])⟩
        refine ⟨⟨forall_mid gl (carve_good ?_ (need_dvd _) (le_refl _) hle) gr2, merged_carve m1 m3 m5, w.top⟩, ?_, ?_⟩
        · have h1 := gr1.1; have h2 := gc.1; simp only at h1 h2; omega
        · simp only [Heap.cap, total_append, total, carve_total hle]; omega
        · simp only [users_append, users, carve_users, carve_total hle, total_append, Nat.zero_add] at *
          rw [hp, Nat.add_assoc, List.append_assoc]
          exact List.perm_middle
      · cases e
    · cases e
    · cases e

/-- what `mspace_realloc` leaves: the old block is replaced, or kept (result NULL), or gone (moved out of the heap) -/
def replaced (p q req : Nat) (o : Option Nat) (gone : Bool) (us : List (Nat × Nat)) : List (Nat × Nat) := match o with
  | some x => (x, req) :: us.erase (p, q)
  | none => if gone then us.erase (p, q) else us

theorem realloc_spec {h h' : Heap} {p q req : Nat} {ch : Choice} {moved : Bool} {o : Option Nat} (w : WF h)
    (hu : (p, q) ∈ users 0 h.chunks) (e : realloc h p req ch moved = some (h', o)) :
    WF h' ∧ h'.cap = h.cap ∧
    (users 0 h'.chunks).Perm (replaced p q req o (moved && decide (req < maxRequest)) (users 0 h.chunks)) := by
  unfold realloc at e
  by_cases hr : req < maxRequest
  · rw [if_pos hr] at e
    obtain ⟨l, s, r, hf⟩ := find_user w.good hu
    obtain ⟨hc, hp⟩ := find_some hf
    simp only [hf] at e
    have hh : h = ⟨l ++ ⟨s, .user q⟩ :: r, h.top⟩ := by rw [← hc]
    have hcap : (⟨l ++ ⟨s, .user q⟩ :: r, h.top⟩ : Heap).cap = h.cap := by rw [← hh]
    simp only [hr, decide_true, Bool.and_true]
    split at e
    · rename_i h1 ht
      simp only [Option.some.injEq, Prod.mk.injEq] at e
      obtain ⟨rfl, rfl⟩ := e
      obtain ⟨a, b, c⟩ := tryRealloc_spec (hh ▸ w) hp ht
      refine ⟨a, b.trans hcap, ?_⟩
      simp only [replaced, hc]
      exact c.trans ((users_erase hp).symm.cons _)
    · split at e
      · rename_i h1 x hm
        obtain ⟨a, b, c⟩ := malloc_spec w hm
        have hu1 : (p, q) ∈ users 0 h1.chunks := c.mem_iff.2 (by simp [added, hu])
        obtain ⟨h2, f, a2, b2, c2⟩ := free_spec a hu1
        simp only [f, Option.map_some, Option.some.injEq, Prod.mk.injEq] at e
        obtain ⟨rfl, rfl⟩ := e
        refine ⟨a2, b2.trans b, c2.trans ?_⟩
        have c3 := c.erase (p, q)
        simp only [added] at c3
        simp only [replaced]
        refine c3.trans ?_
        by_cases hx : (x, req) = (p, q)
        · rw [hx, List.erase_cons_head]
          exact List.perm_cons_erase hu
        · rw [List.erase_cons_tail (by simpa using hx)]
      · rename_i h1 hm
        obtain ⟨a, b, c⟩ := malloc_spec w hm
        cases moved with
        | true =>
          have hu1 : (p, q) ∈ users 0 h1.chunks := c.mem_iff.2 (by simp [added, hu])
          obtain ⟨h2, f, a2, b2, c2⟩ := free_spec a hu1
          simp only [f, Option.map_some, if_true, Option.some.injEq, Prod.mk.injEq] at e
          obtain ⟨rfl, rfl⟩ := e
          exact ⟨a2, b2.trans b, c2.trans (c.erase _)⟩
        | false =>
          simp only [Bool.false_eq_true, if_false, Option.some.injEq, Prod.mk.injEq] at e
          obtain ⟨rfl, rfl⟩ := e
          exact ⟨a, b, c⟩
      · cases e
  · rw [if_neg hr] at e
    simp only [Option.some.injEq, Prod.mk.injEq] at e
    obtain ⟨rfl, rfl⟩ := e
    refine ⟨w, rfl, ?_⟩
    simp [replaced, hr]

/-! ## memalign -/

theorem lead_ok {al mem : Nat} (ha : 16 ∣ al) (h32 : 32 ≤ al) (hm : 16 ∣ mem) :
    (mem + lead al mem) % al = 0 ∧ 16 ∣ lead al mem ∧ lead al mem ≤ al + 16 ∧ (lead al mem = 0 ∨ 32 ≤ lead al mem) := by
  unfold lead
  by_cases h0 : mem % al = 0
  · simp [h0]
  · rw [if_neg h0]
    obtain ⟨k, hk, hlt, hm2⟩ : ∃ k, (mem + al - 1) / al * al = k * al ∧ mem < k * al ∧ k * al < mem + al := by
      refine ⟨(mem + al - 1) / al, rfl, ?_, ?_⟩
      · have h1 := Nat.div_add_mod mem al
        have hlt := Nat.mod_lt mem (show al > 0 by omega)
        have : (mem + al - 1) / al = mem / al + 1 := by
          rw [show mem + al - 1 = (mem % al - 1) + (mem / al + 1) * al by
            rw [Nat.add_mul, Nat.mul_comm (mem / al) al]; omega]
          rw [Nat.add_mul_div_right _ _ (by omega)]
          rw [Nat.div_eq_of_lt (by omega)]
          omega
        rw [this, Nat.add_mul, Nat.mul_comm (mem / al) al]
        omega
      · have h1 := Nat.div_add_mod mem al
        have hlt := Nat.mod_lt mem (show al > 0 by omega)
        have := Nat.div_mul_le_self (mem + al - 1) al
        have : (mem + al - 1) / al = mem / al + 1 := by
          rw [show mem + al - 1 = (mem % al - 1) + (mem / al + 1) * al by
            rw [Nat.add_mul, Nat.mul_comm (mem / al) al]; omega]
          rw [Nat.add_mul_div_right _ _ (by omega)]
          rw [Nat.div_eq_of_lt (by omega)]
          omega
        rw [this, Nat.add_mul, Nat.mul_comm (mem / al) al]
        omega
    simp only [hk, minChunk]
    have hka : 16 ∣ k * al := Dvd.dvd.mul_left ha k
    split
    · refine ⟨?_, by omega, by omega, by omega⟩
      rw [show mem + (k * al - mem) = k * al by omega]
      exact Nat.mul_mod_left _ _
    · refine ⟨?_, by omega, by omega, by omega⟩
      rw [show mem + (k * al - mem + al) = (k + 1) * al by rw [Nat.add_mul]; omega]
      exact Nat.mul_mod_left _ _

theorem giveLead_spec {l r : List Chunk} {s d req p q : Nat} {t : Option Nat} (w : WF ⟨l ++ ⟨s, .user q⟩ :: r, t⟩)
    (hp : 0 + total l = p) (hd : 16 ∣ d) (hfit : d + need req ≤ s) :
    WF (giveLead l s d req r t) ∧ (giveLead l s d req r t).cap = (⟨l ++ ⟨s, .user q⟩ :: r, t⟩ : Heap).cap ∧
    (users 0 (giveLead l s d req r t).chunks).Perm ((p + d, req) :: (users 0 l ++ users (p + s) r)) := by
  obtain ⟨gl, gc, gr⟩ := forall_split w.good
  obtain ⟨m1, m2, m3, m4, m5⟩ := merged_split w.merged
  have hnr := need_ge req
  have gs : ∀ z, 16 ∣ z → need req ≤ z → Good ⟨z, .user req⟩ := fun z h1 h2 =>
    ⟨h1, by simp only; omega, fun r hr => by simp only [Use.user.injEq] at hr; subst hr; exact h2⟩
  unfold giveLead
  by_cases h0 : d = 0
  · simp only [if_pos h0]
    subst h0
    refine ⟨⟨?_, merged_user m1 m3 m5, w.top⟩, by simp [Heap.cap, total_append, total], users_split hp⟩
    have := forall_mid (m := [⟨s, .user req⟩]) gl (by simpa using gs s gc.1 (by omega)) gr
    simpa using this
  · simp only [if_neg h0]
    have gr' : ∀ c ∈ ⟨s - d, .user req⟩ :: r, Good c := by
      intro c hc
      rcases List.mem_cons.1 hc with rfl | hc
      · exact gs _ (by have := gc.1; simp only at this; omega) (by omega)
      · exact gr c hc
    refine ⟨⟨dispose_good gl gr' hd (by omega), dispose_merged m1 ?_ ?_, dispose_top gl hd (by omega) w.top⟩, ?_, ?_⟩
    · exact List.isChain_cons.2 ⟨by simp [NotBoth], m3⟩
    · intro ht x hx
      cases r with
      | nil => simp at hx; subst hx; simp
      | cons e r => exact m5 ht x (by simpa using hx)
    · rw [dispose_cap]; simp only [Heap.cap, total_append, total]; omega
    · rw [dispose_users]
      simp only [users]
      rw [show total l + d = p + d by omega, show p + d + (s - d) = p + s by omega]
      exact List.perm_middle

theorem users_unique {cs : List Chunk} (hg : ∀ c ∈ cs, Good c) {p a b : Nat} (ha : (p, a) ∈ users 0 cs) (hb : (p, b) ∈ users 0 cs) : a = b := by
  obtain ⟨l, s, r, h1⟩ := find_user hg ha
  obtain ⟨l', s', r', h2⟩ := find_user hg hb
  rw [h1] at h2
  simp only [Option.some.injEq, Prod.mk.injEq, Chunk.mk.injEq, Use.user.injEq] at h2
  exact h2.2.1.2

theorem find_of_split (l : List Chunk) (c : Chunk) (r : List Chunk) (hl : ∀ c ∈ l, Good c) : ∀ o, find (o + total l) o (l ++ c :: r) = some (l, c, r) := by
  induction l with
  | nil => intro o; simp [find, total]
  | cons d l ih =>
    intro o
    have hd := (hl d (by simp)).2.1
    simp only [find, total, List.cons_append]
    rw [if_neg (by omega)]
    have := ih (fun c hc => hl c (by simp [hc])) (o + d.size)
    rw [Nat.add_assoc] at this
    rw [this]
    rfl

/-- `mspace_memalign` from the heap gives an aligned block -/
theorem memalign_spec {a0 : Nat} {h h' : Heap} {al req : Nat} {ch : Choice} {o : Option Nat} (ha : 16 ∣ a0) (h16 : 16 ∣ al) (h32 : 32 ≤ al)
    (w : WF h) (e : memalign a0 h al req ch = some (h', o)) :
    WF h' ∧ h'.cap = h.cap ∧ (users 0 h'.chunks).Perm (added o req (users 0 h.chunks)) ∧ ∀ q, o = some q → (a0 + q) % al = 0 := by
  unfold memalign at e
  split at e
  · split at e
    · rename_i h1 p hm
      obtain ⟨w1, c1, u1⟩ := malloc_spec w hm
      simp only [added] at u1
      have hu : (p, need req + al + minChunk - 8) ∈ users 0 h1.chunks := u1.mem_iff.2 (by simp)
      obtain ⟨l, s, r, hf⟩ := find_user w1.good hu
      obtain ⟨hc, hp⟩ := find_some hf
      simp only [hf] at e
      have hh : h1 = ⟨l ++ ⟨s, .user (need req + al + minChunk - 8)⟩ :: r, h1.top⟩ := by rw [← hc]
      have hg := w1.good
      rw [hc] at hg
      obtain ⟨gl, gc, gr⟩ := forall_split hg
      have hp16 : 16 ∣ p := by
        rw [← hp, Nat.zero_add]
        have : ∀ l : List Chunk, (∀ c ∈ l, Good c) → 16 ∣ total l := by
          intro l
          induction l with
          | nil => simp [total]
          | cons c l ih =>
            intro hl
            have h1 := (hl c (by simp)).1
            have h2 := ih (fun c hc => hl c (by simp [hc]))
            simp only [total]; omega
        exact this l gl
      obtain ⟨k1, k2, k3, k4⟩ := lead_ok h16 h32 (show 16 ∣ a0 + p by omega)
      generalize lead al (a0 + p) = d at *
      have hsize : need req + al + 32 ≤ s := by
        have h1 := gc.2.2 _ rfl
        simp only [minChunk] at h1
        have h2 := need_dvd req
        have h3 := need_ge req
        have h4 : ∀ x, 23 ≤ x → need x = (x + 23) / 16 * 16 := fun x hx => by unfold need; rw [if_neg (by omega)]
        rw [h4 _ (by omega)] at h1
        omega
      obtain ⟨w2, c2, u2⟩ := giveLead_spec (req := req) (d := d) (hh ▸ w1) hp k2 (by omega)
      generalize giveLead l s d req r h1.top = h2 at *
      have hu2 : (p + d, req) ∈ users 0 h2.chunks := u2.mem_iff.2 (by simp)
      obtain ⟨l2, s2, r2, hf2⟩ := find_user w2.good hu2
      obtain ⟨hc2, hp2⟩ := find_some hf2
      simp only [hf2, Option.some.injEq, Prod.mk.injEq] at e
      obtain ⟨rfl, rfl⟩ := e
      have hh2 : h2 = ⟨l2 ++ ⟨s2, .user req⟩ :: r2, h2.top⟩ := by rw [← hc2]
      have hg2 := w2.good
      rw [hc2] at hg2
      obtain ⟨gl2, gc2, gr2⟩ := forall_split hg2
      have hn2 := gc2.2.2 _ rfl
      simp only at hn2
      have u3 : (users 0 l ++ users (p + s) r).Perm (users 0 h.chunks) := by
        have := (users_split (s := s) (q := need req + al + minChunk - 8) (r := r) hp)
        rw [← hc] at this
        exact List.perm_cons (p, need req + al + minChunk - 8) |>.1 (this.symm.trans u1)
      have u4 : (users 0 l2 ++ users (p + d + s2) r2).Perm (users 0 h.chunks) := by
        have := (users_split (s := s2) (q := req) (r := r2) hp2)
        rw [← hc2] at this
        exact (List.perm_cons (p + d, req) |>.1 (this.symm.trans u2)).trans u3
      have key := shrink_spec (k := 1) (nb := need req) (req := req) (hh2 ▸ w2) hp2 (need_dvd _) (le_refl _) hn2
      have cond : trimEnd l2 s2 (need req) req r2 h2.top = if s2 - need req < minChunk + 1 then (⟨l2 ++ ⟨s2, .user req⟩ :: r2, h2.top⟩ : Heap)
          else dispose (l2 ++ [⟨need req, .user req⟩]) (s2 - need req) r2 h2.top := by
        unfold trimEnd
        by_cases hb : need req + minChunk < s2
        · rw [if_pos hb, if_neg (by omega)]
        · rw [if_neg hb, if_pos (by omega)]
      rw [cond]

      refine ⟨key.1, ?_, ?_, ?_⟩
      · rw [key.2.1, ← hh2, c2, ← hh, c1]
      · exact key.2.2.trans (u4.cons _)
      · intro q hq
        injection hq with hq
        subst hq
        rw [← Nat.add_assoc]; exact k1
    · rename_i h1 hm
      obtain ⟨w1, c1, u1⟩ := malloc_spec w hm
      simp only [Option.some.injEq, Prod.mk.injEq] at e
      obtain ⟨rfl, rfl⟩ := e
      exact ⟨w1, c1, u1, by simp⟩
    · cases e
  · simp only [Option.some.injEq, Prod.mk.injEq] at e
    obtain ⟨rfl, rfl⟩ := e
    exact ⟨w, rfl, List.Perm.refl _, by simp⟩

end Verif.Heap
