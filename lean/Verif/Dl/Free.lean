import Verif.Dl.Malloc
/-!
# Giving chunks back keeps the bins right
-/
namespace Verif.Dl
open Heap

/-- the free chunks of a sequence of chunks that starts at offset `o` -/
def fmap : Nat → List Chunk → Nat → Option Nat
  | _, [], _ => none
  | o, ⟨s, .free⟩ :: cs, p => if p = o then some s else fmap (o + s) cs p
  | o, ⟨s, .user _⟩ :: cs, p => fmap (o + s) cs p
  | o, ⟨s, .dead⟩ :: cs, p => fmap (o + s) cs p

/-- no empty chunk -/
def Pos (l : List Chunk) : Prop := ∀ c ∈ l, 0 < c.size

theorem fmap_append (l r : List Chunk) : ∀ (o p : Nat), fmap o (l ++ r) p = (fmap o l p).or (fmap (o + total l) r p) := by
  induction l with
  | nil => intro o p; simp [fmap, total]
  | cons c l ih =>
    intro o p
    obtain ⟨s, u⟩ := c
    have e : o + (s + total l) = o + s + total l := by omega
    cases u with
    | free =>
      simp only [List.cons_append, fmap, total, e]
      split
      · rfl
      · exact ih _ _
    | user q => simp only [List.cons_append, fmap, total, e]; exact ih _ _
    | dead => simp only [List.cons_append, fmap, total, e]; exact ih _ _

theorem fmap_bound : ∀ {cs : List Chunk} {o p s : Nat}, fmap o cs p = some s → o ≤ p ∧ p + s ≤ o + total cs := by
  intro cs
  induction cs with
  | nil => intro o p s h; simp [fmap] at h
  | cons c cs ih =>
    intro o p s h
    obtain ⟨n, u⟩ := c
    cases u with
    | free =>
      simp only [fmap] at h
      split at h
      · rename_i hp
        injection h with h
        simp only [total]; omega
      · have := ih h
        simp only [total]; omega
    | user q =>
      simp only [fmap] at h
      have := ih h
      simp only [total]; omega
    | dead =>
      simp only [fmap] at h
      have := ih h
      simp only [total]; omega

theorem fmap_mem : ∀ {cs : List Chunk} {o p s : Nat}, fmap o cs p = some s → (⟨s, .free⟩ : Chunk) ∈ cs := by
  intro cs
  induction cs with
  | nil => intro o p s h; simp [fmap] at h
  | cons c cs ih =>
    intro o p s h
    obtain ⟨n, u⟩ := c
    cases u with
    | free =>
      simp only [fmap] at h
      split at h
      · injection h with h
        subst h; simp
      · exact List.mem_cons_of_mem _ (ih h)
    | user q => exact List.mem_cons_of_mem _ (ih h)
    | dead => exact List.mem_cons_of_mem _ (ih h)

theorem fmap_low {cs : List Chunk} {o p : Nat} (h : p < o) : fmap o cs p = none := by
  cases hf : fmap o cs p with
  | none => rfl
  | some s => have := fmap_bound hf; omega

theorem fmap_high {cs : List Chunk} {o p : Nat} (hg : Pos cs) (h : o + total cs ≤ p) : fmap o cs p = none := by
  cases hf : fmap o cs p with
  | none => rfl
  | some s =>
    have := fmap_bound hf
    have : 0 < s := hg _ (fmap_mem hf)
    omega

theorem fmap_apart : ∀ {cs : List Chunk} {o : Nat}, Apart (fmap o cs) := by
  intro cs
  induction cs with
  | nil => intro o p s h; simp [fmap] at h
  | cons c cs ih =>
    intro o p s h q h1 h2
    obtain ⟨n, u⟩ := c
    cases u with
    | free =>
      simp only [fmap] at h ⊢
      split at h
      · rename_i hp
        injection h with h
        rw [if_neg (by omega)]
        exact fmap_low (by omega)
      · have := (fmap_bound h).1
        rw [if_neg (by omega)]
        exact ih p s h q h1 h2
    | user r => exact ih p s h q h1 h2
    | dead => exact ih p s h q h1 h2

theorem pos_append {l r : List Chunk} : Pos (l ++ r) ↔ Pos l ∧ Pos r := by
  simp only [Pos, List.mem_append]
  exact ⟨fun h => ⟨fun c hc => h c (.inl hc), fun c hc => h c (.inr hc)⟩, fun h c hc => hc.elim (h.1 c) (h.2 c)⟩

theorem fmap_of_find {cs l r : List Chunk} {p : Nat} {c : Chunk} (hg : Pos cs) (h : find p 0 cs = some (l, c, r)) :
    fmap 0 cs p = if c.use = .free then some c.size else none := by
  obtain ⟨rfl, hp⟩ := find_some h
  obtain ⟨g1, g2⟩ := pos_append.1 hg
  rw [fmap_append, fmap_high g1 (by omega)]
  obtain ⟨s, u⟩ := c
  have h0 := g2 ⟨s, u⟩ (by simp)
  simp only at h0
  cases u with
  | free => simp [fmap, ← hp]
  | user q => simp only [fmap, reduceCtorEq, if_false, Option.none_or]; exact fmap_low (by omega)
  | dead => simp only [fmap, reduceCtorEq, if_false, Option.none_or]; exact fmap_low (by omega)

/-- a chunk becomes free -/
theorem fmap_free {l r : List Chunk} {s q : Nat} (hl : Pos l) :
    Function.update (fmap 0 (l ++ ⟨s, .user q⟩ :: r)) (total l) (some s) = fmap 0 (l ++ ⟨s, .free⟩ :: r) := by
  funext p
  by_cases hp : p = total l
  · subst hp
    rw [Function.update_self, fmap_append, fmap_high hl (by omega)]
    simp [fmap]
  · rw [Function.update_of_ne hp, fmap_append, fmap_append]
    simp only [fmap, Nat.zero_add, if_neg hp]

/-- a free chunk is taken -/
theorem fmap_take {l r : List Chunk} {s q : Nat} (hl : Pos l) (hs : 0 < s) :
    Function.update (fmap 0 (l ++ ⟨s, .free⟩ :: r)) (total l) none = fmap 0 (l ++ ⟨s, .user q⟩ :: r) := by
  funext p
  by_cases hp : p = total l
  · subst hp
    rw [Function.update_self, fmap_append, fmap_high hl (by omega)]
    simp only [fmap, Nat.zero_add, Option.none_or]
    exact (fmap_low (by omega)).symm
  · rw [Function.update_of_ne hp, fmap_append, fmap_append]
    simp only [fmap, Nat.zero_add, if_neg hp]

theorem fmap_at_free {l r : List Chunk} {s : Nat} (hl : Pos l) : fmap 0 (l ++ ⟨s, .free⟩ :: r) (total l) = some s := by
  rw [← fmap_free (q := 0) hl, Function.update_self]

theorem fmap_at_user {l r : List Chunk} {s q : Nat} (hl : Pos l) (hs : 0 < s) : fmap 0 (l ++ ⟨s, .user q⟩ :: r) (total l) = none := by
  rw [← fmap_take hl hs, Function.update_self]

/-- chunks that are not free can be joined -/
theorem fmap_join {l r : List Chunk} {a c q q' q'' : Nat} :
    fmap 0 (l ++ ⟨a, .user q⟩ :: ⟨c, .user q'⟩ :: r) = fmap 0 (l ++ ⟨a + c, .user q''⟩ :: r) := by
  funext p
  rw [fmap_append, fmap_append]
  simp only [fmap, Nat.add_assoc]

theorem fmap_relabel {l r : List Chunk} {a q q' : Nat} : fmap 0 (l ++ ⟨a, .user q⟩ :: r) = fmap 0 (l ++ ⟨a, .user q'⟩ :: r) := by
  funext p
  rw [fmap_append, fmap_append]
  simp only [fmap]

theorem fmap_last {l : List Chunk} {a q : Nat} : fmap 0 (l ++ [⟨a, .user q⟩]) = fmap 0 l := by
  funext p
  rw [fmap_append]
  simp [fmap]

theorem prevFree_some {l : List Chunk} {n : Nat} (h : prevFree l = some n) : ∃ l0, l = l0 ++ [⟨n, .free⟩] ∧ ∀ s, back l s = (l0, n + s) := by
  induction l with
  | nil => simp [prevFree] at h
  | cons c l ih =>
    cases l with
    | nil =>
      obtain ⟨m, u⟩ := c
      cases u with
      | free =>
        simp only [prevFree, Option.some.injEq] at h
        subst h
        exact ⟨[], rfl, fun s => rfl⟩
      | user q => simp [prevFree] at h
      | dead => simp [prevFree] at h
    | cons d l =>
      simp only [prevFree] at h
      obtain ⟨l0, h1, h2⟩ := ih h
      exact ⟨c :: l0, by rw [h1]; rfl, fun s => by simp only [back, h2]⟩

theorem prevFree_none {l : List Chunk} (h : prevFree l = none) (s : Nat) : back l s = (l, s) := by
  induction l with
  | nil => rfl
  | cons c l ih =>
    cases l with
    | nil =>
      obtain ⟨m, u⟩ := c
      cases u with
      | free => simp [prevFree] at h
      | user q => rfl
      | dead => rfl
    | cons d l =>
      simp only [prevFree] at h
      simp only [back, ih h]

/-- size of a chunk in use: multiple of 16, at least 32 -/
def Sz (s : Nat) : Prop := 16 ∣ s ∧ 32 ≤ s

theorem fwd_spec {b : Bins} {l r : List Chunk} {s q : Nat} {t : Option Nat} (i : BInv (fmap 0 (l ++ ⟨s, .user q⟩ :: r)) b) (hl : Pos l) (hs : Sz s)
    (hr : Pos r) : BInv (fmap 0 (fwd l s r t).chunks) (fwdBins b (total l) s (total l + s) r t) := by
  have h0 : fmap 0 (l ++ ⟨s, .user q⟩ :: r) (total l) = none := fmap_at_user hl (by have := hs.2; omega)
  have hdv : b.dv ≠ some (total l) := fun h => by rw [i.dv _ h] at h0; cases h0
  have hins : BInv (fmap 0 (l ++ ⟨s, .free⟩ :: r)) (b.insert (total l) s) := by
    have := i.insert h0 hs.1 hs.2
    rwa [fmap_free hl] at this
  cases r with
  | nil =>
    cases t with
    | none => exact hins
    | some t =>
      simp only [fwd, fwdBins, if_neg hdv]
      rwa [fmap_last] at i
  | cons d r =>
    obtain ⟨n, u⟩ := d
    cases u with
    | user q' => exact hins
    | dead => exact hins
    | free =>
      have hn : 0 < n := hr ⟨n, .free⟩ (by simp)
      have hl1 : Pos (l ++ [⟨s, .user q⟩]) := by
        rw [pos_append]
        refine ⟨hl, fun c hc => ?_⟩
        simp at hc; subst hc
        have := hs.2
        show 0 < s
        omega
      have ht1 : total (l ++ [⟨s, .user q⟩]) = total l + s := by rw [total_append]; rfl
      have e1 : l ++ ⟨s, .user q⟩ :: ⟨n, .free⟩ :: r = (l ++ [⟨s, .user q⟩]) ++ ⟨n, .free⟩ :: r := by simp
      have hFn : fmap 0 (l ++ ⟨s, .user q⟩ :: ⟨n, .free⟩ :: r) (total l + s) = some n := by
        rw [e1, ← ht1]; exact fmap_at_free hl1
      have hsz := i.size _ _ hFn
      have htake : Function.update (fmap 0 (l ++ ⟨s, .user q⟩ :: ⟨n, .free⟩ :: r)) (total l + s) none = fmap 0 (l ++ ⟨s + n, .user q⟩ :: r) := by
        rw [e1, ← ht1, fmap_take (q := q) hl1 hn]
        rw [show (l ++ [⟨s, .user q⟩]) ++ ⟨n, .user q⟩ :: r = l ++ ⟨s, .user q⟩ :: ⟨n, .user q⟩ :: r by simp]
        exact fmap_join
      have hs2 : Sz (s + n) := ⟨Nat.dvd_add hs.1 hsz.1, by have := hs.2; omega⟩
      simp only [fwd, fwdBins]
      by_cases hd : b.dv = some (total l + s)
      · rw [if_pos hd]
        have hds : b.dvsize = n := by
          have := i.dv _ hd
          rw [hFn] at this
          injection this with this
          exact this.symm
        rw [hds]
        have := i.moveDv hd (.inr h0) (s := n + s) (by rw [Nat.add_comm]; exact hs2.1) (by rw [Nat.add_comm]; exact hs2.2)
        rw [htake, Nat.add_comm n s, fmap_free hl] at this
        rwa [Nat.add_comm n s]
      · rw [if_neg hd]
        have hu := i.unlink hFn hd
        rw [htake] at hu
        rw [if_neg (by rw [(unlink_dv b _ _).1]; exact hdv)]
        have := hu.insert (fmap_at_user hl (by have := hs2.2; omega)) hs2.1 hs2.2
        rwa [fmap_free hl] at this

theorem dispose_spec {b : Bins} {l r : List Chunk} {s q : Nat} {t : Option Nat} (i : BInv (fmap 0 (l ++ ⟨s, .user q⟩ :: r)) b) (hl : Pos l) (hs : Sz s)
    (hr : Pos r) : BInv (fmap 0 (dispose l s r t).chunks) (disposeBins b l (total l) s r t) := by
  unfold dispose disposeBins
  cases hp : prevFree l with
  | none =>
    rw [prevFree_none hp]
    exact fwd_spec i hl hs hr
  | some n =>
    obtain ⟨l0, rfl, hb⟩ := prevFree_some hp
    rw [hb]
    simp only
    obtain ⟨hl0, hn⟩ := pos_append.1 hl
    have hn : 0 < n := hn ⟨n, .free⟩ (by simp)
    have ht : total (l0 ++ [⟨n, .free⟩]) - n = total l0 := by rw [total_append]; simp [total]
    have ht2 : total (l0 ++ [⟨n, .free⟩]) + s = total l0 + (n + s) := by rw [total_append]; simp [total]; omega
    rw [ht, ht2]
    have e1 : (l0 ++ [⟨n, .free⟩]) ++ ⟨s, .user q⟩ :: r = l0 ++ ⟨n, .free⟩ :: ⟨s, .user q⟩ :: r := by simp
    rw [e1] at i
    have hFn : fmap 0 (l0 ++ ⟨n, .free⟩ :: ⟨s, .user q⟩ :: r) (total l0) = some n := fmap_at_free hl0
    have hsz := i.size _ _ hFn
    have hs2 : Sz (n + s) := ⟨Nat.dvd_add hsz.1 hs.1, by have := hs.2; omega⟩
    have htake : Function.update (fmap 0 (l0 ++ ⟨n, .free⟩ :: ⟨s, .user q⟩ :: r)) (total l0) none = fmap 0 (l0 ++ ⟨n + s, .user q⟩ :: r) := by
      rw [fmap_take (q := q) hl0 hn]
      exact fmap_join
    by_cases hd : b.dv = some (total l0)
    · rw [if_pos hd]
      have hgrow : BInv (fmap 0 (l0 ++ ⟨n + s, .free⟩ :: r)) { b with dvsize := n + s } := by
        have := i.moveDv hd (.inl rfl) hs2.1 hs2.2
        rw [htake, fmap_free hl0, ← hd] at this
        exact this
      cases r with
      | nil =>
        cases t with
        | none => exact hgrow
        | some t =>
          simp only [nextInUse, Bool.false_eq_true, if_false, fwdBins, fwd, if_pos hd]
          have := i.dropDv hd
          rwa [htake, fmap_last] at this
      | cons d r =>
        obtain ⟨m, u⟩ := d
        cases u with
        | user q' => exact hgrow
        | dead => exact hgrow
        | free =>
          have hm : 0 < m := hr ⟨m, .free⟩ (by simp)
          simp only [nextInUse, Bool.false_eq_true, if_false, fwdBins, fwd]
          have hne : b.dv ≠ some (total l0 + (n + s)) := by
            rw [hd]
            intro h
            injection h
            omega
          rw [if_neg hne, if_pos (by rw [(unlink_dv b _ _).1]; exact hd)]
          have hl1 : Pos (l0 ++ [⟨n, .free⟩, ⟨s, .user q⟩]) := by
            rw [pos_append]
            refine ⟨hl0, fun c hc => ?_⟩
            have := hs.2
            simp at hc
            rcases hc with rfl | rfl
            · exact hn
            · show 0 < s
              omega
          have ht1 : total (l0 ++ [⟨n, .free⟩, ⟨s, .user q⟩]) = total l0 + (n + s) := by rw [total_append]; rfl
          have e2 : l0 ++ ⟨n, .free⟩ :: ⟨s, .user q⟩ :: ⟨m, .free⟩ :: r = (l0 ++ [⟨n, .free⟩, ⟨s, .user q⟩]) ++ ⟨m, .free⟩ :: r := by simp
          have hFm : fmap 0 (l0 ++ ⟨n, .free⟩ :: ⟨s, .user q⟩ :: ⟨m, .free⟩ :: r) (total l0 + (n + s)) = some m := by
            rw [e2, ← ht1]; exact fmap_at_free hl1
          have hszm := i.size _ _ hFm
          have htk : Function.update (fmap 0 (l0 ++ ⟨n, .free⟩ :: ⟨s, .user q⟩ :: ⟨m, .free⟩ :: r)) (total l0 + (n + s)) none =
              fmap 0 (l0 ++ ⟨n, .free⟩ :: ⟨s, .user q⟩ :: ⟨m, .user q⟩ :: r) := by
            rw [e2, ← ht1, fmap_take (q := q) hl1 hm]
            simp
          have hu := i.unlink hFm hne
          rw [htk] at hu
          have hs3 : Sz (n + s + m) := ⟨Nat.dvd_add hs2.1 hszm.1, by have := hs2.2; omega⟩
          have hd' : (b.unlink (total l0 + (n + s)) m).dv = some (total l0) := by rw [(unlink_dv b _ _).1]; exact hd
          have k := hu.moveDv hd' (.inl rfl) hs3.1 hs3.2
          have e3 : Function.update (fmap 0 (l0 ++ ⟨n, .free⟩ :: ⟨s, .user q⟩ :: ⟨m, .user q⟩ :: r)) (total l0) none = fmap 0 (l0 ++ ⟨n + s + m, .user q⟩ :: r) := by
            rw [fmap_take (q := q) hl0 hn, fmap_join (q'' := q), fmap_join (q'' := q)]
          rw [e3, fmap_free hl0, ← hd'] at k
          exact k
    · rw [if_neg hd]
      have hu := i.unlink hFn hd
      rw [htake] at hu
      exact fwd_spec hu hl0 hs2 hr

end Verif.Dl
