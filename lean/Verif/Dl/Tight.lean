import Verif.Dl.Steps
/-!
# A block takes up at most 64 bytes more than asked for
-/
namespace Verif.Dl
open Heap

/-- a chunk in use has at most 32 bytes to spare -/
def Tight (c : Chunk) : Prop := ∀ r, c.use = .user r → c.size ≤ need r + 32

theorem tight_free {n : Nat} : Tight ⟨n, .free⟩ := fun r h => by cases h

theorem tight_carve {s nb req : Nat} (hn : nb = need req) : ∀ c ∈ carve s nb req, Tight c := by
  intro c hc
  unfold carve minChunk at hc
  split at hc
  · simp only [List.mem_singleton] at hc
    subst hc
    intro r h
    injection h with h
    subst h
    show s ≤ _
    omega
  · simp only [List.mem_cons, List.not_mem_nil, or_false] at hc
    rcases hc with rfl | rfl
    · intro r h
      injection h with h
      subst h
      show nb ≤ _
      omega
    · exact tight_free

theorem tight_need {req : Nat} : Tight ⟨need req, .user req⟩ := by
  intro r h
  injection h with h
  subst h
  show need req ≤ _
  omega

theorem tight_dispose {l r : List Chunk} {s : Nat} {t : Option Nat} (hl : ∀ c ∈ l, Tight c) (hr : ∀ c ∈ r, Tight c) :
    ∀ c ∈ (dispose l s r t).chunks, Tight c := by
  intro c hc
  rcases dispose_mem hc with h | h | h
  · exact hl c h
  · exact hr c h
  · intro r hr; rw [h] at hr; cases hr

theorem tight_snoc {l : List Chunk} {nb req : Nat} (hl : ∀ c ∈ l, Tight c) (h : nb = need req) : ∀ c ∈ l ++ [⟨nb, .user req⟩], Tight c := by
  intro c hc
  rcases List.mem_append.1 hc with hc | hc
  · exact hl c hc
  · simp only [List.mem_singleton] at hc; subst hc; subst h; exact tight_need

theorem malloc_tight {h h' : Heap} {req : Nat} {ch : Choice} {o : Option Nat} (n : ∀ c ∈ h.chunks, Tight c) (e : Heap.malloc h req ch = some (h', o)) :
    ∀ c ∈ h'.chunks, Tight c := by
  cases ch with
  | chunk p =>
    simp only [Heap.malloc] at e
    split at e
    · split at e
      · rename_i l s r hf
        obtain ⟨hc, hp⟩ := find_some hf
        split at e
        · simp only [Option.some.injEq, Prod.mk.injEq] at e
          obtain ⟨rfl, rfl⟩ := e
          rw [hc] at n
          obtain ⟨n1, _, n2⟩ := forall_split n
          exact forall_mid n1 (tight_carve rfl) n2
        · cases e
      · cases e
      · cases e
      · cases e
    · cases e
  | top =>
    simp only [Heap.malloc] at e
    split at e
    · split at e
      · split at e
        · simp only [Option.some.injEq, Prod.mk.injEq] at e
          obtain ⟨rfl, rfl⟩ := e
          exact tight_snoc n rfl
        · cases e
      · cases e
    · cases e
  | outside seg =>
    cases seg with
    | false =>
      simp only [Heap.malloc, Option.some.injEq, Prod.mk.injEq] at e
      obtain ⟨rfl, rfl⟩ := e
      exact n
    | true =>
      simp only [Heap.malloc] at e
      split at e <;> (simp only [Option.some.injEq, Prod.mk.injEq] at e; obtain ⟨rfl, rfl⟩ := e)
      · intro c hc
        rcases List.mem_append.1 hc with hc | hc
        · exact n c hc
        · simp only [List.mem_singleton] at hc
          subst hc
          intro r hr
          simp only at hr
          split at hr <;> cases hr
      · exact n

theorem free_tight {h h' : Heap} {p : Nat} (n : ∀ c ∈ h.chunks, Tight c) (e : Heap.free h p = some h') : ∀ c ∈ h'.chunks, Tight c := by
  unfold Heap.free at e
  split at e
  · rename_i l s q r hf
    obtain ⟨hc, _⟩ := find_some hf
    injection e with e
    subst e
    rw [hc] at n
    obtain ⟨n1, _, n2⟩ := forall_split n
    exact tight_dispose n1 n2
  · cases e
  · cases e
  · cases e

theorem tryRealloc_tight {l r : List Chunk} {s req : Nat} {t : Option Nat} {h' : Heap} (hl : ∀ c ∈ l, Tight c) (hr : ∀ c ∈ r, Tight c)
    (e : tryRealloc l s (need req) req r t = some h') : ∀ c ∈ h'.chunks, Tight c := by
  unfold tryRealloc at e
  split at e
  · rename_i hle
    injection e with e
    subst e
    unfold shrink
    split
    · rename_i hm
      unfold minChunk at hm
      intro c hc
      rcases List.mem_append.1 hc with hc | hc
      · exact hl c hc
      · rcases List.mem_cons.1 hc with rfl | hc
        · intro q hq
          injection hq with hq
          subst hq
          show s ≤ _
          omega
        · exact hr c hc
    · exact tight_dispose (tight_snoc hl rfl) hr
  · cases r with
    | nil =>
      cases t with
      | none => cases e
      | some t =>
        simp only at e
        split at e
        · injection e with e
          subst e
          exact tight_snoc hl rfl
        · cases e
    | cons d r =>
      obtain ⟨n, u⟩ := d
      cases u with
      | free =>
        simp only at e
        split at e
        · injection e with e
          subst e
          exact forall_mid hl (tight_carve rfl) (fun c hc => hr c (by simp [hc]))
        · cases e
      | user q => cases e
      | dead => cases e

theorem realloc_tight {h h' : Heap} {p req : Nat} {ch : Choice} {moved : Bool} {o : Option Nat} (n : ∀ c ∈ h.chunks, Tight c)
    (e : Heap.realloc h p req ch moved = some (h', o)) : ∀ c ∈ h'.chunks, Tight c := by
  unfold Heap.realloc at e
  split at e
  · split at e
    · rename_i l s q r hf
      obtain ⟨hc, _⟩ := find_some hf
      have n' := n
      rw [hc] at n'
      obtain ⟨n1, _, n2⟩ := forall_split n'
      split at e
      · rename_i h1 ht
        simp only [Option.some.injEq, Prod.mk.injEq] at e
        obtain ⟨rfl, rfl⟩ := e
        exact tryRealloc_tight n1 n2 ht
      · split at e
        · rename_i h1 x hm
          cases hfr : Heap.free h1 p with
          | none => rw [hfr] at e; cases e
          | some h2 =>
            rw [hfr] at e
            simp only [Option.map_some, Option.some.injEq, Prod.mk.injEq] at e
            obtain ⟨rfl, rfl⟩ := e
            exact free_tight (malloc_tight n hm) hfr
        · rename_i h1 hm
          split at e
          · cases hfr : Heap.free h1 p with
            | none => rw [hfr] at e; cases e
            | some h2 =>
              rw [hfr] at e
              simp only [Option.map_some, Option.some.injEq, Prod.mk.injEq] at e
              obtain ⟨rfl, rfl⟩ := e
              exact free_tight (malloc_tight n hm) hfr
          · simp only [Option.some.injEq, Prod.mk.injEq] at e
            obtain ⟨rfl, rfl⟩ := e
            exact malloc_tight n hm
        · cases e
    · cases e
    · cases e
    · cases e
  · simp only [Option.some.injEq, Prod.mk.injEq] at e
    obtain ⟨rfl, rfl⟩ := e
    exact n

/-- after skipping, the chunks before and after the aligned one -/
theorem lead_parts {l r : List Chunk} {s d req : Nat} {t : Option Nat} {p : Nat} (hp : 0 + total l = p) (w : WF (giveLead l s d req r t))
    (hl : ∀ c ∈ l, Tight c) (hr : ∀ c ∈ r, Tight c) {l2 r2 : List Chunk} {c2 : Chunk}
    (hf : find (p + d) 0 (giveLead l s d req r t).chunks = some (l2, c2, r2)) : (∀ c ∈ l2, Tight c) ∧ ∀ c ∈ r2, Tight c := by
  unfold giveLead at hf w
  by_cases hd : d = 0
  · rw [if_pos hd] at hf w
    have := find_of_split (o := 0) (l := l) (c := ⟨s, .user req⟩) (r := r) (fun c hc => w.good c (by simp [hc]))
    rw [hp] at this
    simp only [hd, Nat.add_zero, this, Option.some.injEq, Prod.mk.injEq] at hf
    obtain ⟨rfl, -, rfl⟩ := hf
    exact ⟨hl, hr⟩
  · rw [if_neg hd] at hf w
    unfold dispose fwd at hf w
    simp only at hf w
    have hb := back_total l d
    have hmem : ∀ c ∈ (back l d).1, c ∈ l := fun c => back_mem
    generalize back l d = x at *
    obtain ⟨l1, n⟩ := x
    simp only at hf w hb hmem
    have e : l1 ++ ⟨n, .free⟩ :: ⟨s - d, .user req⟩ :: r = (l1 ++ [⟨n, .free⟩]) ++ ⟨s - d, .user req⟩ :: r := by simp
    have hg := w.good
    simp only at hg
    rw [e] at hf hg
    have := find_of_split (o := 0) (l := l1 ++ [⟨n, .free⟩]) (c := ⟨s - d, .user req⟩) (r := r) (forall_split hg).1
    rw [show 0 + total (l1 ++ [⟨n, .free⟩]) = p + d by rw [total_append]; simp only [total]; omega] at this
    rw [this] at hf
    simp only [Option.some.injEq, Prod.mk.injEq] at hf
    obtain ⟨rfl, -, rfl⟩ := hf
    refine ⟨fun c hc => ?_, hr⟩
    rcases List.mem_append.1 hc with hc | hc
    · exact hl c (hmem c hc)
    · simp only [List.mem_singleton] at hc; subst hc; exact tight_free

theorem memalign_tight {a0 : Nat} {h h' : Heap} {al req : Nat} {ch : Choice} {o : Option Nat} (ha : 16 ∣ a0) (h16 : 16 ∣ al) (h32 : 32 ≤ al) (w : WF h)
    (n : ∀ c ∈ h.chunks, Tight c) (e : Heap.memalign a0 h al req ch = some (h', o)) : ∀ c ∈ h'.chunks, Tight c := by
  unfold Heap.memalign at e
  split at e
  · split at e
    · rename_i h1 p hm
      have n1 := malloc_tight n hm
      obtain ⟨w1, c1, u1⟩ := malloc_spec w hm
      split at e
      · rename_i l s q r hf
        obtain ⟨hc, hp⟩ := find_some hf
        rw [hc] at n1
        obtain ⟨t1, _, t2⟩ := forall_split n1
        have hg := w1.good
        rw [hc] at hg
        obtain ⟨gl, gc, gr⟩ := forall_split hg
        have hu : (p, need req + al + minChunk - 8) ∈ users 0 h1.chunks := u1.mem_iff.2 (by simp [added])
        have hq : q = need req + al + minChunk - 8 := by
          obtain ⟨l', s', r', hf'⟩ := find_user w1.good hu
          rw [hf] at hf'
          simp only [Option.some.injEq, Prod.mk.injEq, Chunk.mk.injEq, Use.user.injEq] at hf'
          exact hf'.2.1.2
        subst hq
        have hh : h1 = ⟨l ++ ⟨s, .user (need req + al + minChunk - 8)⟩ :: r, h1.top⟩ := by rw [← hc]
        have hp16 : 16 ∣ p := by
          rw [← hp, Nat.zero_add]
          have : ∀ l : List Chunk, (∀ c ∈ l, Good c) → 16 ∣ total l := by
            intro l
            induction l with
            | nil => simp [total]
            | cons c l ih =>
              intro hl
              have h1 := (hl c (by simp)).1
              have h2 := ih (fun c hc => hl c (by simp [hc]))
              simp only [total]; omega
          exact this l gl
        obtain ⟨k1, k2, k3, k4⟩ := lead_ok h16 h32 (show 16 ∣ a0 + p by omega)
        dsimp only at e
        generalize lead al (a0 + p) = d at *
        have hsize : need req + al + 32 ≤ s := by
          have h1 := gc.2.2 _ rfl
          simp only [minChunk] at h1
          have h2 := need_dvd req
          have h3 := need_ge req
          have h4 : ∀ x, 23 ≤ x → need x = (x + 23) / 16 * 16 := fun x hx => by unfold need; rw [if_neg (by omega)]
          rw [h4 _ (by omega)] at h1
          omega
        obtain ⟨w2, -, -⟩ := giveLead_spec (req := req) (d := d) (hh ▸ w1) hp k2 (by omega)
        split at e
        · rename_i l2 s2 q2 r2 hf2
          obtain ⟨m1, m2⟩ := lead_parts hp w2 t1 t2 hf2
          simp only [Option.some.injEq, Prod.mk.injEq] at e
          obtain ⟨rfl, rfl⟩ := e
          unfold trimEnd
          split
          · exact tight_dispose (tight_snoc m1 rfl) m2
          · rename_i hm
            unfold minChunk at hm
            intro c hc
            rcases List.mem_append.1 hc with hc | hc
            · exact m1 c hc
            · rcases List.mem_cons.1 hc with rfl | hc
              · intro q hq
                injection hq with hq
                subst hq
                show s2 ≤ _
                omega
              · exact m2 c hc
        · cases e
        · cases e
        · cases e
      · cases e
      · cases e
      · cases e
    · rename_i h1 hm
      simp only [Option.some.injEq, Prod.mk.injEq] at e
      obtain ⟨rfl, rfl⟩ := e
      exact malloc_tight n hm
    · cases e
  · simp only [Option.some.injEq, Prod.mk.injEq] at e
    obtain ⟨rfl, rfl⟩ := e
    exact n

theorem grant_tight {s s' : Sys} {req : Nat} {x : Option (Heap × Option Nat)} {o : Option Nat} (e : s.grant req x = some (s', o))
    (h : ∀ h' q, x = some (h', q) → ∀ c ∈ h'.chunks, Tight c) : ∀ c ∈ s'.heap.chunks, Tight c := by
  cases x with
  | none => simp [Sys.grant] at e
  | some y =>
    obtain ⟨h', q⟩ := y
    have := h h' q rfl
    cases q <;>
    · simp only [Sys.grant, Option.some.injEq, Prod.mk.injEq] at e
      obtain ⟨rfl, rfl⟩ := e
      exact this

theorem tight_reach {a0 cap : Nat} {s : Sys} (ha : 16 ∣ a0) (hcap : 16 ∣ cap) (r : Heap.Reach a0 cap s) : ∀ c ∈ s.heap.chunks, Tight c := by
  induction r with
  | @init h e =>
    unfold create at e
    split at e
    · injection e with e
      subst e
      intro c hc
      simp at hc
    · cases e
  | @step s s' o c ch moved r e n =>
    cases c with
    | malloc req => exact grant_tight e (fun _ _ hx => malloc_tight n hx)
    | calloc a b => exact grant_tight e (fun _ _ hx => malloc_tight n hx)
    | align k req =>
      simp only [Heap.step] at e
      split at e
      · exact grant_tight e (fun _ _ hx => malloc_tight n hx)
      · rename_i hk
        obtain ⟨h1, h2⟩ := pow_16 hk
        exact grant_tight e (fun _ _ hx => memalign_tight ha h1 h2 (inv_reach ha hcap r).wf n hx)
    | realloc p req =>
      simp only [Heap.step] at e
      split at e
      · cases e
      · split at e
        · rename_i hr
          simp only [Option.some.injEq, Prod.mk.injEq] at e
          obtain ⟨rfl, rfl⟩ := e
          exact realloc_tight n hr
        · rename_i hr
          simp only [Option.some.injEq, Prod.mk.injEq] at e
          obtain ⟨rfl, rfl⟩ := e
          exact realloc_tight n hr
        · cases e
    | free p =>
      simp only [Heap.step] at e
      split at e
      · cases e
      · cases hf : Heap.free s.heap p with
        | none => rw [hf] at e; cases e
        | some h2 =>
          rw [hf] at e
          simp only [Option.map_some, Option.some.injEq, Prod.mk.injEq] at e
          obtain ⟨rfl, rfl⟩ := e
          exact free_tight n hf

end Verif.Dl
