import Verif.Dl.Tight
import Verif.Heap.Props
/-!
# The allocator's own choices: C61, C62, C70, C71, C72
-/
namespace Verif.Dl
open Heap

/-- a call that names no block, or one that is held -/
def Legal (s : St) : Call → Prop
  | .malloc _ => True
  | .calloc _ _ => True
  | .align _ _ => True
  | .realloc p _ => ∃ r, (p, r) ∈ s.live
  | .free p => ∃ r, (p, r) ∈ s.live

theorem mem_lookup {l : List (Nat × Nat)} {p r : Nat} (h : (p, r) ∈ l) : ∃ y, l.lookup p = some y := by
  induction l with
  | nil => cases h
  | cons a l ih =>
    obtain ⟨a, b⟩ := a
    rw [List.lookup_cons]
    split
    · exact ⟨_, rfl⟩
    · rename_i hx
      rcases List.mem_cons.1 h with h | h
      · injection h with h1 h2
        subst h1
        simp at hx
      · exact ih h

/-- one call: it is possible, it is a call of the model without bins, and the bins stay right -/
theorem step_ok {a0 cap : Nat} {s : St} (ha : 16 ∣ a0) (hc : cap < 2 ^ 64) (i : Heap.Inv cap ⟨s.heap, s.live⟩) (ib : BInv (fmap 0 s.heap.chunks) s.bins) (os : Bool)
    (c : Call) (hl : Legal s c) : ∃ s' o ch, step a0 s os c = some (s', o) ∧ Heap.step a0 ⟨s.heap, s.live⟩ ch os c = some (⟨s'.heap, s'.live⟩, o) ∧
      BInv (fmap 0 s'.heap.chunks) s'.bins := by
  have hi : HInv s.heap s.bins := ⟨i.wf, ib, by have := i.size; simp only at this; omega⟩
  have hmal : ∀ req, ∃ s' o ch, s.grant req (malloc s.heap s.bins req) = some (s', o) ∧
      Sys.grant ⟨s.heap, s.live⟩ req (Heap.malloc s.heap req ch) = some (⟨s'.heap, s'.live⟩, o) ∧ BInv (fmap 0 s'.heap.chunks) s'.bins := by
    intro req
    obtain ⟨h', b', o, e1, e2, k⟩ := malloc_ok hi req
    cases o with
    | none => exact ⟨⟨h', b', s.live⟩, none, _, by rw [e1]; rfl, by rw [e2]; rfl, k.bins⟩
    | some q => exact ⟨⟨h', b', (q, req) :: s.live⟩, some q, _, by rw [e1]; rfl, by rw [e2]; rfl, k.bins⟩
  cases c with
  | malloc req => exact hmal req
  | calloc n sz => exact hmal (callocReq n sz)
  | align k req =>
    simp only [step, Heap.step]
    by_cases hk : 2 ^ k ≤ 16
    · simp only [if_pos hk]
      exact hmal req
    · simp only [if_neg hk]
      obtain ⟨h1, h2⟩ := pow_16 hk
      obtain ⟨h', b', o, e1, e2, k⟩ := memalign_ok ha h1 h2 hi req
      cases o with
      | none => exact ⟨⟨h', b', s.live⟩, none, _, by rw [e1]; rfl, by rw [e2]; rfl, k.bins⟩
      | some q => exact ⟨⟨h', b', (q, req) :: s.live⟩, some q, _, by rw [e1]; rfl, by rw [e2]; rfl, k.bins⟩
  | realloc p req =>
    obtain ⟨r0, hr0⟩ := hl
    obtain ⟨r, hr⟩ := mem_lookup hr0
    obtain ⟨h', b', o, e1, e2, k⟩ := realloc_ok hi (i.held.mem_iff.1 (lookup_mem hr)) req os
    simp only [step, Heap.step, hr]
    cases o with
    | none => exact ⟨⟨h', b', _⟩, none, _, by rw [e1], by rw [e2], k.bins⟩
    | some q => exact ⟨⟨h', b', _⟩, some q, _, by rw [e1], by rw [e2], k.bins⟩
  | free p =>
    obtain ⟨r0, hr0⟩ := hl
    obtain ⟨r, hr⟩ := mem_lookup hr0
    obtain ⟨h', b', e1, e2, k⟩ := free_ok hi (i.held.mem_iff.1 (lookup_mem hr))
    simp only [step, Heap.step, hr]
    exact ⟨⟨h', b', _⟩, none, .top, by rw [e1]; rfl, by rw [e2]; rfl, k.bins⟩

theorem legal_of_step {a0 : Nat} {s s' : St} {os : Bool} {c : Call} {o : Option Nat} (e : step a0 s os c = some (s', o)) : Legal s c := by
  cases c with
  | malloc => trivial
  | calloc => trivial
  | align => trivial
  | realloc p req =>
    simp only [step] at e
    split at e
    · cases e
    · rename_i r hr; exact ⟨r, lookup_mem hr⟩
  | free p =>
    simp only [step] at e
    split at e
    · cases e
    · rename_i r hr; exact ⟨r, lookup_mem hr⟩

theorem top_grant {s s' : Sys} {req : Nat} {x : Option (Heap × Option Nat)} {o : Option Nat} (e : s.grant req x = some (s', o))
    (h : ∀ h' q, x = some (h', q) → h'.top.isSome = true) : s'.heap.top.isSome = true := by
  cases x with
  | none => simp [Sys.grant] at e
  | some y =>
    obtain ⟨h', q⟩ := y
    have := h h' q rfl
    cases q <;>
    · simp only [Sys.grant, Option.some.injEq, Prod.mk.injEq] at e
      obtain ⟨rfl, rfl⟩ := e
      exact this

/-- **C70 (refinement).** Every history of the allocator with its bins is one of the model where a request may be served by any
chunk that fits: all that is proved there (C47, C60, C62) holds here. -/
theorem C70_refines {base cap : Nat} {s : St} (hb : 16 ∣ base) (hc : 16 ∣ cap) (h64 : cap < 2 ^ 64) (r : Reach (base + 960) cap s) :
    Heap.Reach (base + 960) cap ⟨s.heap, s.live⟩ ∧ BInv (fmap 0 s.heap.chunks) s.bins := by
  have ha : 16 ∣ base + 960 := by omega
  induction r with
  | @init h e =>
    refine ⟨.init e, ?_⟩
    unfold create at e
    split at e
    · injection e with e
      subst e
      exact BInv.empty
    · cases e
  | @step s s' o c os _ e ih =>
    obtain ⟨s1, o1, ch, e1, e2, k⟩ := step_ok ha h64 (inv_reach ha hc ih.1) ih.2 os c (legal_of_step e)
    rw [e] at e1
    simp only [Option.some.injEq, Prod.mk.injEq] at e1
    obtain ⟨rfl, rfl⟩ := e1
    exact ⟨.step ih.1 e2, k⟩

/-- **C70 (no misuse).** After any history, every call that names no block, or one that is held, works: the allocator never takes
a chunk that is not free or too small from its bins, and finds every block that it is asked to free or to resize. -/
theorem C70_total {base cap : Nat} {s : St} (hb : 16 ∣ base) (hc : 16 ∣ cap) (h64 : cap < 2 ^ 64) (r : Reach (base + 960) cap s) (os : Bool) (c : Call)
    (hl : Legal s c) : ∃ s' o, step (base + 960) s os c = some (s', o) := by
  obtain ⟨r1, r2⟩ := C70_refines hb hc h64 r
  obtain ⟨s', o, _, e, _⟩ := step_ok (show 16 ∣ base + 960 by omega) h64 (inv_reach (by omega) hc r1) r2 os c hl
  exact ⟨s', o, e⟩

/-- **C70 (blocks).** The blocks held are disjoint, aligned and inside the heap's memory. -/
theorem C70_blocks {base cap : Nat} {s : St} (hb : 16 ∣ base) (hc : 16 ∣ cap) (h64 : cap < 2 ^ 64) (r : Reach (base + 960) cap s) :
    s.live.Pairwise (fun x y => Disjoint (base + 960 + x.1) x.2 (base + 960 + y.1) y.2) ∧
    ∀ x ∈ s.live, 16 ∣ base + 960 + x.1 ∧ base + 944 ≤ base + 960 + x.1 ∧ base + 960 + x.1 + x.2 ≤ base + cap - 72 :=
  C60_blocks hb hc (C70_refines hb hc h64 r).1

theorem top_of_malloc {h h' : Heap} {b b' : Bins} {req : Nat} {o : Option Nat} (i : HInv h b) (ht : h.top.isSome = true) (e : malloc h b req = some ((h', b'), o)) :
    h'.top.isSome = true := by
  have sp := place_spec i.bins fmap_apart i.lt h.top req
  unfold malloc at e
  simp only at e
  generalize place b h.top req = x at *
  obtain ⟨ch, b1⟩ := x
  cases ch with
  | chunk p =>
    simp only [Heap.malloc] at e
    split at e
    · split at e
      · split at e
        · simp only [Option.map_some, Option.some.injEq, Prod.mk.injEq] at e
          obtain ⟨⟨rfl, -⟩, -⟩ := e
          exact ht
        · cases e
      · cases e
      · cases e
      · cases e
    · cases e
  | top =>
    simp only [Heap.malloc] at e
    split at e
    · split at e
      · split at e
        · simp only [Option.map_some, Option.some.injEq, Prod.mk.injEq] at e
          obtain ⟨⟨rfl, -⟩, -⟩ := e
          rfl
        · cases e
      · cases e
    · cases e
  | outside seg =>
    cases seg with
    | true => rcases sp with ⟨p, s, h1, -⟩ | ⟨⟨h1, -⟩ | ⟨h1, -⟩, -⟩ <;> cases h1
    | false =>
      simp only [Heap.malloc, Option.map_some, Option.some.injEq, Prod.mk.injEq] at e
      obtain ⟨⟨rfl, -⟩, -⟩ := e
      exact ht

theorem dispose_top {l r : List Chunk} {s : Nat} {t : Option Nat} : (dispose l s r t).top.isSome = t.isSome := by
  unfold dispose; exact (fwd_top _ _ _ _).1

theorem top_of_free {h h' : Heap} {b b' : Bins} {p : Nat} (ht : h.top.isSome = true) (e : free h b p = some (h', b')) : h'.top.isSome = true := by
  unfold free at e
  split at e
  · simp only [Option.some.injEq, Prod.mk.injEq] at e
    obtain ⟨rfl, -⟩ := e
    rw [dispose_top]; exact ht
  · cases e
  · cases e
  · cases e

theorem top_of_tryRealloc {l r : List Chunk} {s nb req : Nat} {t : Option Nat} {h' : Heap} (ht : t.isSome = true) (e : tryRealloc l s nb req r t = some h') :
    h'.top.isSome = true := by
  unfold tryRealloc at e
  split at e
  · injection e with e
    subst e
    unfold shrink
    split
    · exact ht
    · rw [dispose_top]; exact ht
  · cases r with
    | nil =>
      cases t with
      | none => cases e
      | some t =>
        simp only at e
        split at e
        · injection e with e
          subst e
          rfl
        · cases e
    | cons d r =>
      obtain ⟨n, u⟩ := d
      cases u with
      | free =>
        simp only at e
        split at e
        · injection e with e
          subst e
          exact ht
        · cases e
      | user q => cases e
      | dead => cases e

theorem top_of_realloc {h h' : Heap} {b b' : Bins} {p req : Nat} {os : Bool} {o : Option Nat} (i : HInv h b) (ht : h.top.isSome = true)
    (e : realloc h b p req os = some ((h', b'), o)) : h'.top.isSome = true := by
  unfold realloc at e
  split at e
  · split at e
    · split at e
      · rename_i h1 hr
        simp only [Option.some.injEq, Prod.mk.injEq] at e
        obtain ⟨⟨rfl, -⟩, -⟩ := e
        exact top_of_tryRealloc ht hr
      · split at e
        · rename_i x q hm
          obtain ⟨h1, b1⟩ := x
          have t1 := top_of_malloc i ht hm
          cases hf : free h1 b1 p with
          | none => simp only [hf] at e; cases e
          | some y =>
            obtain ⟨h2, b2⟩ := y
            simp only [hf, Option.map_some, Option.some.injEq, Prod.mk.injEq] at e
            obtain ⟨⟨rfl, -⟩, -⟩ := e
            exact top_of_free t1 hf
        · rename_i x hm
          obtain ⟨h1, b1⟩ := x
          have t1 := top_of_malloc i ht hm
          split at e
          · cases hf : free h1 b1 p with
            | none => simp only [hf] at e; cases e
            | some y =>
              obtain ⟨h2, b2⟩ := y
              simp only [hf, Option.map_some, Option.some.injEq, Prod.mk.injEq] at e
              obtain ⟨⟨rfl, -⟩, -⟩ := e
              exact top_of_free t1 hf
          · simp only [Option.some.injEq, Prod.mk.injEq] at e
            obtain ⟨⟨rfl, -⟩, -⟩ := e
            exact t1
        · cases e
    · cases e
    · cases e
    · cases e
  · simp only [Option.some.injEq, Prod.mk.injEq] at e
    obtain ⟨⟨rfl, -⟩, -⟩ := e
    exact ht

theorem top_of_memalign {a0 : Nat} {h h' : Heap} {b b' : Bins} {al req : Nat} {o : Option Nat} (i : HInv h b) (ht : h.top.isSome = true)
    (e : memalign a0 h b al req = some ((h', b'), o)) : h'.top.isSome = true := by
  unfold memalign at e
  split at e
  · split at e
    · rename_i x p hm
      obtain ⟨h1, b1⟩ := x
      have t1 := top_of_malloc i ht hm
      split at e
      · rename_i l s q r hf
        dsimp only at e
        have t2 : (giveLead l s (lead al (a0 + p)) req r h1.top).top.isSome = true := by
          unfold giveLead
          split
          · exact t1
          · rw [dispose_top]; exact t1
        generalize giveLead l s (lead al (a0 + p)) req r h1.top = h2 at *
        split at e
        · simp only [Option.some.injEq, Prod.mk.injEq] at e
          obtain ⟨⟨rfl, -⟩, -⟩ := e
          unfold trimEnd
          split
          · rw [dispose_top]; exact t2
          · exact t2
        · cases e
        · cases e
        · cases e
      · cases e
      · cases e
      · cases e
    · rename_i x hm
      obtain ⟨h1, b1⟩ := x
      simp only [Option.some.injEq, Prod.mk.injEq] at e
      obtain ⟨⟨rfl, -⟩, -⟩ := e
      exact top_of_malloc i ht hm
    · cases e
  · simp only [Option.some.injEq, Prod.mk.injEq] at e
    obtain ⟨⟨rfl, -⟩, -⟩ := e
    exact ht

theorem top_reach {base cap : Nat} {s : St} (hb : 16 ∣ base) (hc : 16 ∣ cap) (h64 : cap < 2 ^ 64) (r : Reach (base + 960) cap s) : s.heap.top.isSome = true := by
  induction r with
  | @init h e =>
    unfold create at e
    split at e
    · injection e with e; subst e; rfl
    · cases e
  | @step s s' o c os r e ih =>
    obtain ⟨r1, r2⟩ := C70_refines hb hc h64 r
    have i := inv_reach (show 16 ∣ base + 960 by omega) hc r1
    have hi : HInv s.heap s.bins := ⟨i.wf, r2, by have := i.size; simp only at this; omega⟩
    have hgr : ∀ req x, s.grant req x = some (s', o) → (∀ h' b' q, x = some ((h', b'), q) → h'.top.isSome = true) → s'.heap.top.isSome = true := by
      intro req x e h
      cases x with
      | none => simp [St.grant] at e
      | some y =>
        obtain ⟨⟨h', b'⟩, q⟩ := y
        have := h h' b' q rfl
        cases q <;>
        · simp only [St.grant, Option.some.injEq, Prod.mk.injEq] at e
          obtain ⟨rfl, rfl⟩ := e
          exact this
    cases c with
    | malloc req => exact hgr _ _ e (fun _ _ _ hx => top_of_malloc hi ih hx)
    | calloc n sz => exact hgr _ _ e (fun _ _ _ hx => top_of_malloc hi ih hx)
    | align k req =>
      simp only [step] at e
      split at e
      · exact hgr _ _ e (fun _ _ _ hx => top_of_malloc hi ih hx)
      · exact hgr _ _ e (fun _ _ _ hx => top_of_memalign hi ih hx)
    | realloc p req =>
      simp only [step] at e
      split at e
      · cases e
      · split at e
        · rename_i x q hr
          obtain ⟨h', b'⟩ := x
          simp only [Option.some.injEq, Prod.mk.injEq] at e
          obtain ⟨rfl, rfl⟩ := e
          exact top_of_realloc hi ih hr
        · rename_i x hr
          obtain ⟨h', b'⟩ := x
          simp only [Option.some.injEq, Prod.mk.injEq] at e
          obtain ⟨rfl, rfl⟩ := e
          exact top_of_realloc hi ih hr
        · cases e
    | free p =>
      simp only [step] at e
      split at e
      · cases e
      · cases hf : free s.heap s.bins p with
        | none => rw [hf] at e; cases e
        | some x =>
          obtain ⟨h', b'⟩ := x
          rw [hf] at e
          simp only [Option.map_some, Option.some.injEq, Prod.mk.injEq] at e
          obtain ⟨rfl, rfl⟩ := e
          exact top_of_free ih hf

/-! ## C62 -/

theorem bins_empty {b : Bins} (i : BInv (fun _ => none) b) : b = .init := by
  have hdv : b.dv = none := by
    cases h : b.dv with
    | none => rfl
    | some p => exact absurd (i.dv p h) (by simp)
  have hsm : ∀ j, b.small j = [] := by
    intro j
    cases h : b.small j with
    | nil => rfl
    | cons p l =>
      have := ((i.small_mem j p).1 (by rw [h]; simp)).1
      simp at this
  have htr : ∀ j, b.tree j = .leaf := by
    intro j
    cases h : b.tree j with
    | leaf => rfl
    | node s p q l r =>
      have := (i.tree_mem j p s).1 (by rw [h]; exact .inl ⟨rfl, by simp⟩)
      simp at this
  have e1 : b.smallmap = 0 := by
    apply eq_zero_iff.2
    intro k hk
    by_contra hne
    exact (i.smallmap k hk).1 (by simpa using hne) (hsm k)
  have e2 : b.treemap = 0 := by
    apply eq_zero_iff.2
    intro k hk
    by_contra hne
    exact (i.treemap k hk).1 (by simpa using hne) (htr k)
  have e3 := i.nodv hdv
  obtain ⟨a1, a2, a3, a4, a5, a6⟩ := b
  simp only at *
  subst a1 a2 a5 a6
  have : a3 = fun _ => [] := funext hsm
  have : a4 = fun _ => .leaf := funext htr
  subst a3 a4
  rfl

/-- **C62.** When the user has freed all blocks, the allocator is exactly in its initial state: one free area of the full size,
nothing in any bin. What follows is as in a new heap. -/
theorem C62_restart {base cap : Nat} {s : St} (hb : 16 ∣ base) (hc : 16 ∣ cap) (h64 : cap < 2 ^ 64) (r : Reach (base + 960) cap s) (hl : s.live = []) :
    ∃ h, create cap = some h ∧ s = ⟨h, .init, []⟩ := by
  obtain ⟨r1, r2⟩ := C70_refines hb hc h64 r
  have e := C62_empty hb hc r1 hl (top_reach hb hc h64 r)
  refine ⟨s.heap, e, ?_⟩
  have hnil : s.heap.chunks = [] := by
    unfold create at e
    split at e
    · injection e with e
      have e : s.heap = _ := e.symm
      rw [e]
    · cases e
  rw [hnil] at r2
  have hbin := bins_empty r2
  obtain ⟨h, b, l⟩ := s
  simp only at *
  subst hbin hl
  rfl

/-! ## C61 -/

theorem memalign_congr' {a b al : Nat} (h : a % al = b % al) (ha : 0 < al) (hp : Heap) (bn : Bins) (req : Nat) :
    memalign a hp bn al req = memalign b hp bn al req := by
  have : ∀ p, lead al (a + p) = lead al (b + p) := fun p => lead_congr (by rw [Nat.add_mod, h, ← Nat.add_mod]) ha
  unfold memalign
  simp only [this]

/-- a sequence of calls, with what the operating system does at each; results of the calls -/
def run (a0 : Nat) : St → List (Call × Bool) → Option (St × List (Option Nat))
  | s, [] => some (s, [])
  | s, c :: cs => match step a0 s c.2 c.1 with
    | none => none
    | some (s', o) => (run a0 s' cs).map (fun x => (x.1, o :: x.2))

/-- **C61 (partial: equal bases modulo the alignments).** The allocator, with its own placement decisions, gives the same offsets
on two PEs for the same calls, if the heaps start at addresses that are equal modulo every alignment asked for. No assumption on
how it chooses. Missing: other placements, for which it is false (`C61_fails`). -/
theorem C61_actual_partial {b1 b2 : Nat} : ∀ (cs : List (Call × Bool)) (s : St), (∀ k ∈ aligns (cs.map (·.1)), b1 % 2 ^ k = b2 % 2 ^ k) →
    run (b1 + 960) s cs = run (b2 + 960) s cs := by
  intro cs
  induction cs with
  | nil => intro s _; rfl
  | cons c cs ih =>
    intro s hk
    obtain ⟨c, os⟩ := c
    have hstep : step (b1 + 960) s os c = step (b2 + 960) s os c := by
      cases c with
      | align k req =>
        simp only [step]
        rw [memalign_congr' (a := b1 + 960) (b := b2 + 960) (by rw [Nat.add_mod, hk k (by simp [aligns]), ← Nat.add_mod]) (Nat.two_pow_pos k)]
      | malloc => rfl
      | calloc => rfl
      | realloc => rfl
      | free => rfl
    simp only [run, hstep]
    cases step (b2 + 960) s os c with
    | none => rfl
    | some x =>
      simp only
      rw [ih]
      intro k hk'
      apply hk
      cases c <;> simp_all [aligns]

end Verif.Dl
