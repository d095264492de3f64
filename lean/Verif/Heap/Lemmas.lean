import Verif.Heap.Model
import Mathlib.Data.List.Chain
import Mathlib.Data.List.Perm.Basic
/-!
# Chunks of the heap: preservation lemmas
-/
namespace Verif.Heap

/-- allocated chunks with their offsets -/
def users : Nat → List Chunk → List (Nat × Nat)
  | _, [] => []
  | o, ⟨s, .user r⟩ :: cs => (o, r) :: users (o + s) cs
  | o, ⟨s, .free⟩ :: cs => users (o + s) cs
  | o, ⟨s, .dead⟩ :: cs => users (o + s) cs

theorem total_append (l r : List Chunk) : total (l ++ r) = total l + total r := by
  induction l with
  | nil => simp [total]
  | cons c l ih => simp [total, ih]; omega

theorem users_append (o : Nat) (l r : List Chunk) : users o (l ++ r) = users o l ++ users (o + total l) r := by
  induction l generalizing o with
  | nil => simp [users, total]
  | cons c l ih =>
    obtain ⟨s, u⟩ := c
    cases u <;> simp [users, total, ih, Nat.add_assoc]

/-- a well-formed chunk -/
def Good (c : Chunk) : Prop := 16 ∣ c.size ∧ 0 < c.size ∧ ∀ r, c.use = .user r → need r ≤ c.size

theorem need_dvd (r : Nat) : 16 ∣ need r := by unfold need; split <;> omega
theorem need_ge (r : Nat) : 32 ≤ need r := by unfold need; split <;> omega
theorem need_fits (r : Nat) : r + 8 ≤ need r := by unfold need; split <;> omega

theorem find_some {p : Nat} : ∀ {cs : List Chunk} {o : Nat} {l : List Chunk} {c : Chunk} {r : List Chunk},
    find p o cs = some (l, c, r) → cs = l ++ c :: r ∧ o + total l = p := by
  intro cs
  induction cs with
  | nil => intro o l c r h; simp [find] at h
  | cons d cs ih =>
    intro o l c r h
    simp only [find] at h
    by_cases ho : o = p
    · rw [if_pos ho] at h
      injection h with h
      injection h with h1 h2
      injection h2 with h2 h3
      subst h1; subst h2; subst h3
      exact ⟨rfl, by simp [total, ho]⟩
    · rw [if_neg ho] at h
      cases hf : find p (o + d.size) cs with
      | none => rw [hf] at h; simp at h
      | some x =>
        rw [hf] at h
        obtain ⟨l', c', r'⟩ := x
        simp only [Option.map_some, Option.some.injEq, Prod.mk.injEq] at h
        obtain ⟨rfl, rfl, rfl⟩ := h
        obtain ⟨h1, h2⟩ := ih hf
        exact ⟨by rw [h1]; rfl, by simp only [total]; omega⟩

theorem users_bound {cs : List Chunk} (hg : ∀ c ∈ cs, Good c) : ∀ {o : Nat} {x : Nat × Nat}, x ∈ users o cs →
    o ≤ x.1 ∧ x.1 + need x.2 ≤ o + total cs := by
  induction cs with
  | nil => intro o x h; simp [users] at h
  | cons c cs ih =>
    intro o x h
    have ih := @ih (fun c hc => hg c (List.mem_cons_of_mem _ hc))
    obtain ⟨h16, hpos, hn⟩ := hg c List.mem_cons_self
    obtain ⟨s, u⟩ := c
    simp only [total] at *
    cases u with
    | free => simp only [users] at h; have := ih h; omega
    | dead => simp only [users] at h; have := ih h; omega
    | user r =>
      simp only [users, List.mem_cons] at h
      rcases h with h | h
      · subst h
        have := hn r rfl
        simp only
        omega
      · have := ih h; omega

theorem find_user {cs : List Chunk} (hg : ∀ c ∈ cs, Good c) : ∀ {o p r : Nat}, (p, r) ∈ users o cs →
    ∃ l s r', find p o cs = some (l, ⟨s, .user r⟩, r') := by
  induction cs with
  | nil => intro o p r h; simp [users] at h
  | cons c cs ih =>
    intro o p r h
    have hg' := fun c hc => hg c (List.mem_cons_of_mem _ hc)
    have ih := @ih hg'
    obtain ⟨_, hpos, _⟩ := hg c List.mem_cons_self
    obtain ⟨s, u⟩ := c
    have later : (p, r) ∈ users (o + s) cs → ∃ l s' r', find p o (⟨s, u⟩ :: cs) = some (l, ⟨s', .user r⟩, r') := by
      intro h
      have hb := users_bound hg' h
      simp only at hb hpos
      obtain ⟨l, s', r', hf⟩ := ih h
      refine ⟨⟨s, u⟩ :: l, s', r', ?_⟩
      simp only [find]
      rw [if_neg (by omega), hf]
      rfl
    cases u with
    | free => simp only [users] at h; exact later h
    | dead => simp only [users] at h; exact later h
    | user r0 =>
      simp only [users, List.mem_cons] at h
      rcases h with h | h
      · simp only [Prod.mk.injEq] at h
        obtain ⟨rfl, rfl⟩ := h
        exact ⟨[], s, cs, by simp [find]⟩
      · exact later h

/-- order of the allocated chunks -/
theorem users_sorted {cs : List Chunk} (hg : ∀ c ∈ cs, Good c) : ∀ (o : Nat),
    (users o cs).Pairwise (fun x y => x.1 + need x.2 ≤ y.1) := by
  induction cs with
  | nil => intro o; simp [users]
  | cons c cs ih =>
    intro o
    have hg' := fun c hc => hg c (List.mem_cons_of_mem _ hc)
    have ih := ih hg'
    obtain ⟨_, hpos, hn⟩ := hg c List.mem_cons_self
    obtain ⟨s, u⟩ := c
    cases u with
    | free => simp only [users]; exact ih _
    | dead => simp only [users]; exact ih _
    | user r0 =>
      simp only [users, List.pairwise_cons]
      refine ⟨fun y hy => ?_, ih _⟩
      have := users_bound hg' hy
      have := hn r0 rfl
      simp only at *
      omega

/-! ## carve, back, fwd, dispose -/

theorem carve_total {s nb req : Nat} (h : nb ≤ s) : total (carve s nb req) = s := by
  unfold carve; split <;> simp [total] <;> omega

theorem carve_users (o s nb req : Nat) : users o (carve s nb req) = [(o, req)] := by
  unfold carve; split <;> simp [users]

theorem carve_good {s nb req : Nat} (h16 : 16 ∣ s) (hn16 : 16 ∣ nb) (hnb : need req ≤ nb) (h : nb ≤ s) : ∀ c ∈ carve s nb req, Good c := by
  have := need_ge req
  unfold carve
  split
  · intro c hc
    simp only [List.mem_singleton] at hc
    subst hc
    exact ⟨h16, by simp only; omega, fun r hr => by simp only [Use.user.injEq] at hr; subst hr; simp only; omega⟩
  · rename_i hlt
    simp only [minChunk] at hlt
    intro c hc
    simp only [List.mem_cons, List.not_mem_nil, or_false] at hc
    rcases hc with rfl | rfl
    · exact ⟨hn16, by simp only; omega, fun r hr => by simp only [Use.user.injEq] at hr; subst hr; simp only; omega⟩
    · exact ⟨by simp only; omega, by simp only; omega, fun r hr => by simp at hr⟩

theorem back_total (l : List Chunk) (s : Nat) : total (back l s).1 + (back l s).2 = total l + s := by
  induction l with
  | nil => simp [back]
  | cons c l ih =>
    cases l with
    | nil => obtain ⟨n, u⟩ := c; cases u <;> simp [back, total]
    | cons d l => simp only [back, total] at *; omega

theorem back_users (l : List Chunk) (s o : Nat) : users o (back l s).1 = users o l := by
  induction l generalizing o with
  | nil => simp [back]
  | cons c l ih =>
    cases l with
    | nil => obtain ⟨n, u⟩ := c; cases u <;> simp [back, users]
    | cons d l =>
      obtain ⟨n, u⟩ := c
      cases u <;> simp only [back, users, ih]

theorem back_good {l : List Chunk} {s : Nat} (hl : ∀ c ∈ l, Good c) (h16 : 16 ∣ s) (hs : 0 < s) :
    (∀ c ∈ (back l s).1, Good c) ∧ 16 ∣ (back l s).2 ∧ 0 < (back l s).2 := by
  induction l with
  | nil => simp [back, h16, hs]
  | cons c l ih =>
    cases l with
    | nil =>
      obtain ⟨n, u⟩ := c
      have hc := hl _ List.mem_cons_self
      obtain ⟨k16, kpos, _⟩ := hc
      cases u with
      | free => simp only [back] at *; exact ⟨by simp, by omega, by omega⟩
      | user r => simp only [back]; exact ⟨hl, h16, hs⟩
      | dead => simp only [back]; exact ⟨hl, h16, hs⟩
    | cons d l =>
      obtain ⟨h1, h2, h3⟩ := ih (fun c hc => hl c (List.mem_cons_of_mem _ hc))
      simp only [back]
      refine ⟨?_, h2, h3⟩
      intro x hx
      rcases List.mem_cons.1 hx with rfl | hx
      · exact hl _ List.mem_cons_self
      · exact h1 x hx

/-- bytes of the segment that are chunks or top -/
def Heap.cap (h : Heap) : Nat := total h.chunks + h.top.getD 0

theorem fwd_cap (l : List Chunk) (s : Nat) (r : List Chunk) (t : Option Nat) :
    (fwd l s r t).cap = total l + s + total r + t.getD 0 := by
  unfold Heap.cap
  cases r with
  | nil => cases t <;> simp [fwd, total, total_append] <;> omega
  | cons c r =>
    obtain ⟨n, u⟩ := c
    cases u <;> simp [fwd, total, total_append] <;> omega

theorem fwd_users (l : List Chunk) (s : Nat) (r : List Chunk) (t : Option Nat) :
    users 0 (fwd l s r t).chunks = users 0 l ++ users (total l + s) r := by
  cases r with
  | nil => cases t <;> simp [fwd, users, users_append]
  | cons c r =>
    obtain ⟨n, u⟩ := c
    cases u <;> simp [fwd, users, users_append, Nat.add_assoc]

theorem fwd_good {l : List Chunk} {s : Nat} {r : List Chunk} {t : Option Nat} (hl : ∀ c ∈ l, Good c) (hr : ∀ c ∈ r, Good c)
    (h16 : 16 ∣ s) (hs : 0 < s) : ∀ c ∈ (fwd l s r t).chunks, Good c := by
  have hf : Good ⟨s, .free⟩ := ⟨h16, hs, fun r h => by simp at h⟩
  cases r with
  | nil =>
    cases t with
    | some t => simp only [fwd]; exact hl
    | none =>
      simp only [fwd]
      intro c hc
      rcases List.mem_append.1 hc with hc | hc
      · exact hl c hc
      · simp only [List.mem_singleton] at hc; exact hc ▸ hf
  | cons d r =>
    obtain ⟨n, u⟩ := d
    have hd := hr _ List.mem_cons_self
    have hr' := fun c hc => hr c (List.mem_cons_of_mem _ hc)
    cases u with
    | free =>
      simp only [fwd]
      intro c hc
      rcases List.mem_append.1 hc with hc | hc
      · exact hl c hc
      · rcases List.mem_cons.1 hc with rfl | hc
        · exact ⟨by have := hd.1; simp only at *; omega, by simp only; omega, fun r h => by simp at h⟩
        · exact hr' c hc
    | user q =>
      simp only [fwd]
      intro c hc
      rcases List.mem_append.1 hc with hc | hc
      · exact hl c hc
      · rcases List.mem_cons.1 hc with rfl | hc
        · exact hf
        · exact hr c hc
    | dead =>
      simp only [fwd]
      intro c hc
      rcases List.mem_append.1 hc with hc | hc
      · exact hl c hc
      · rcases List.mem_cons.1 hc with rfl | hc
        · exact hf
        · exact hr c hc

theorem fwd_top (l : List Chunk) (s : Nat) (r : List Chunk) (t : Option Nat) : (fwd l s r t).top.isSome = t.isSome ∧
    (16 ∣ s → (∀ x, t = some x → 16 ∣ x ∧ 0 < x) → ∀ x, (fwd l s r t).top = some x → 16 ∣ x ∧ 0 < x) := by
  cases r with
  | nil =>
    cases t with
    | none => simp [fwd]
    | some t =>
      simp only [fwd]
      refine ⟨rfl, fun h16 ht x hx => ?_⟩
      have := ht t rfl
      injection hx with hx
      omega
  | cons d r => obtain ⟨n, u⟩ := d; cases u <;> simp only [fwd] <;> exact ⟨trivial, fun _ h => h⟩

theorem dispose_cap (l : List Chunk) (s : Nat) (r : List Chunk) (t : Option Nat) :
    (dispose l s r t).cap = total l + s + total r + t.getD 0 := by
  unfold dispose
  rw [fwd_cap, back_total]

theorem dispose_users (l : List Chunk) (s : Nat) (r : List Chunk) (t : Option Nat) :
    users 0 (dispose l s r t).chunks = users 0 l ++ users (total l + s) r := by
  unfold dispose
  rw [fwd_users, back_users, back_total]

theorem dispose_good {l : List Chunk} {s : Nat} {r : List Chunk} {t : Option Nat} (hl : ∀ c ∈ l, Good c) (hr : ∀ c ∈ r, Good c)
    (h16 : 16 ∣ s) (hs : 0 < s) : ∀ c ∈ (dispose l s r t).chunks, Good c := by
  obtain ⟨h1, h2, h3⟩ := back_good hl h16 hs
  exact fwd_good h1 hr h2 h3

/-! ## No two neighbouring free chunks -/

/-- not both free -/
def NotBoth (a b : Chunk) : Prop := ¬(a.use = .free ∧ b.use = .free)

/-- neighbours are merged, also with `top` -/
def Merged (h : Heap) : Prop := h.chunks.IsChain NotBoth ∧ (h.top.isSome = true → ∀ c ∈ h.chunks.getLast?, c.use ≠ .free)

theorem isChain_mid {l r : List Chunk} {c : Chunk} : (l ++ c :: r).IsChain NotBoth ↔
    l.IsChain NotBoth ∧ r.IsChain NotBoth ∧ (∀ x ∈ l.getLast?, NotBoth x c) ∧ (∀ y ∈ r.head?, NotBoth c y) := by
  rw [List.isChain_append, List.isChain_cons]
  simp only [List.head?_cons, Option.mem_def, Option.some.injEq, forall_eq']
  tauto

theorem back_chain {l : List Chunk} {s : Nat} (h : l.IsChain NotBoth) :
    (back l s).1.IsChain NotBoth ∧ ∀ c ∈ (back l s).1.getLast?, c.use ≠ .free := by
  induction l with
  | nil => simp [back]
  | cons c l ih =>
    cases l with
    | nil => obtain ⟨n, u⟩ := c; cases u <;> simp [back]
    | cons d l =>
      rw [List.isChain_cons_cons] at h
      obtain ⟨h1, h2⟩ := ih h.2
      simp only [back]
      cases hb : (back (d :: l) s).1 with
      | nil =>
        refine ⟨by simp, ?_⟩
        intro x hx
        simp at hx
        subst hx
        -- the merged chunk was the only one, so it was free, and so `c` is not
        have hd : d.use = .free := by
          cases l with
          | nil =>
            obtain ⟨n, u⟩ := d
            cases u with
            | free => rfl
            | user r => simp [back] at hb
            | dead => simp [back] at hb
          | cons e l => simp [back] at hb
        exact fun hc => h.1 ⟨hc, hd⟩
      | cons e l' =>
        rw [hb] at h1 h2
        have he : e = d ∨ True := Or.inr trivial
        refine ⟨?_, by simpa using h2⟩
        rw [List.isChain_cons_cons]
        refine ⟨?_, h1⟩
        -- the head of the list is unchanged
        have : e = d := by
          cases l with
          | nil =>
            obtain ⟨n, u⟩ := d
            cases u <;> simp [back] at hb
            · exact hb.1.symm
            · exact hb.1.symm
          | cons g l => simp only [back, List.cons.injEq] at hb; exact hb.1.symm
        rw [this]
        exact h.1

theorem dispose_merged {l r : List Chunk} {s : Nat} {t : Option Nat} (hl : l.IsChain NotBoth) (hr : r.IsChain NotBoth)
    (ht : t.isSome = true → ∀ c ∈ r.getLast?, c.use ≠ .free) : Merged (dispose l s r t) := by
  obtain ⟨h1, h2⟩ := back_chain (s := s) hl
  show Merged (fwd (back l s).1 (back l s).2 r t)
  generalize (back l s).1 = l' at *
  generalize (back l s).2 = s' at *
  have hlc : ∀ c : Chunk, ∀ x ∈ l'.getLast?, NotBoth x c := fun c x hx hb => h2 x hx hb.1
  unfold Merged
  cases r with
  | nil =>
    cases t with
    | some t => simp only [fwd]; exact ⟨h1, fun _ => h2⟩
    | none =>
      simp only [fwd]
      refine ⟨isChain_mid.2 ⟨h1, by simp, hlc _, by simp⟩, by simp⟩
  | cons d r =>
    obtain ⟨n, u⟩ := d
    rw [List.isChain_cons] at hr
    cases u with
    | free =>
      simp only [fwd]
      refine ⟨isChain_mid.2 ⟨h1, hr.2, hlc _, fun y hy hb => hr.1 y hy ⟨rfl, hb.2⟩⟩, fun hs c hc => ?_⟩
      cases r with
      | nil => exact absurd rfl (ht hs ⟨n, .free⟩ (by simp))
      | cons e r => exact ht hs c (by simp at hc ⊢; exact hc)
    | user q =>
      simp only [fwd]
      refine ⟨isChain_mid.2 ⟨h1, List.isChain_cons.2 hr, hlc _, by simp [NotBoth]⟩, fun hs c hc => ?_⟩
      exact ht hs c (by simp at hc ⊢; exact hc)
    | dead =>
      simp only [fwd]
      refine ⟨isChain_mid.2 ⟨h1, List.isChain_cons.2 hr, hlc _, by simp [NotBoth]⟩, fun hs c hc => ?_⟩
      exact ht hs c (by simp at hc ⊢; exact hc)

end Verif.Heap
