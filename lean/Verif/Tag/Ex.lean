import Verif.Tag.Props
/-!
# The symmetric heap in memory: examples
-/
namespace Verif.Tag
open Heap Dl

/-- a call after a sequence of calls, on memory -/
theorem step_of_lists {a0 cap : Nat} (ha : 16 ∣ a0) (hc : 16 ∣ cap) (h64 : cap < 2 ^ 64) (hm : 1024 < cap) (m : Mem) (cs : List (Call × Bool)) {c : Call} {os : Bool}
    {h : Heap} {l : List (Nat × Nat)} {ans : List (Option Nat)} {o : Option Nat}
    (e : seen (Dl.run a0 (Dl.new cap) cs) = some (h, l, ans)) (e' : (seen (Dl.run a0 (Dl.new cap) (cs ++ [(c, os)]))).map (·.2.2) = some (ans ++ [o])) :
    ∃ es s s', Run a0 cap es s ∧ asked es = cs.reverse ∧ s.live = l ∧ step a0 s os c = some (s', o) := by
  obtain ⟨b, e1, -⟩ := reach_seen hm e
  obtain ⟨es, s, r, h1, -, h3, k⟩ := run_of_lists ha hc h64 hm m cs e1
  rw [run_snoc, e1] at e'
  simp only [Option.bind_some] at e'
  cases hs : Dl.step a0 ⟨h, b, l⟩ os c with
  | none => rw [hs] at e'; cases e'
  | some y =>
    obtain ⟨t', o'⟩ := y
    rw [hs] at e'
    simp only [Option.map_some, seen, Option.some.injEq, List.append_cancel_left_eq, List.cons.injEq, and_true] at e'
    subst e'
    have hl : ∀ p, named c = some p → ∃ r, (p, r) ∈ s.live := by
      intro p hp
      have := legal_of_step hs
      rw [h3]
      cases c with
      | malloc => cases hp
      | calloc => cases hp
      | align => cases hp
      | realloc q req => injection hp with hp; subst hp; exact this
      | free q => injection hp with hp; subst hp; exact this
    obtain ⟨s', t', o1, d⟩ := link_step ha h64 k os c hl
    have hd := d.runL
    rw [hs] at hd
    simp only [Option.some.injEq, Prod.mk.injEq] at hd
    obtain ⟨rfl, rfl⟩ := hd
    exact ⟨es, s, s', r, h1, h3, d.run⟩

/-- `C78_realised`, `C78_total`, `C78_headers`, `C79_realloc`: after `someCalls`, in a heap with some initial contents, a block of 100
bytes moves to a larger one -/
example : ∃ es s s', Run (0x10000 + 960) (2 ^ 20) es s ∧ asked es = someCalls.reverse ∧ (48, 100) ∈ s.live ∧ step (0x10000 + 960) s false (.realloc 48 2000) = some (s', some 8208) := by
  obtain ⟨es, s, s', r, h1, h, e⟩ := step_of_lists (a0 := 0x10000 + 960) (cap := 2 ^ 20) (c := .realloc 48 2000) (os := false) (o := some 8208) (by decide) (by decide) (by decide) (by decide)
    (fun x => BitVec.ofNat 8 (x * x)) someCalls someCalls_seen (by decide +kernel)
  exact ⟨es, s, s', r, h1, by rw [h]; decide, e⟩

/-- `C79_realloc`: it grows in place into a free chunk -/
example : ∃ es s s', Run (0x10000 + 960) (2 ^ 20) es s ∧ (48, 100) ∈ s.live ∧ step (0x10000 + 960) s false (.realloc 48 700) = some (s', some 48) := by
  obtain ⟨es, s, s', r, -, h, e⟩ := step_of_lists (a0 := 0x10000 + 960) (cap := 2 ^ 20) (c := .realloc 48 700) (os := false) (o := some 48) (by decide) (by decide) (by decide) (by decide)
    (fun x => BitVec.ofNat 8 (x * x)) someCalls someCalls_seen (by decide +kernel)
  exact ⟨es, s, s', r, by rw [h]; decide, e⟩

/-- `C79_realloc_null`: a request for more than the heap has -/
example : ∃ es s s', Run (0x10000 + 960) (2 ^ 20) es s ∧ (48, 100) ∈ s.live ∧ step (0x10000 + 960) s false (.realloc 48 2000000) = some (s', none) := by
  obtain ⟨es, s, s', r, -, h, e⟩ := step_of_lists (a0 := 0x10000 + 960) (cap := 2 ^ 20) (c := .realloc 48 2000000) (os := false) (o := none) (by decide) (by decide) (by decide) (by decide)
    (fun x => BitVec.ofNat 8 (x * x)) someCalls someCalls_seen (by decide +kernel)
  exact ⟨es, s, s', r, by rw [h]; decide, e⟩

/-- `C79_calloc`: 200 bytes from a free chunk -/
example : ∃ es s s', Run (0x10000 + 960) (2 ^ 20) es s ∧ step (0x10000 + 960) s false (.calloc 10 20) = some (s', some 160) ∧ callocReq 10 20 = 200 := by
  obtain ⟨es, s, s', r, -, h, e⟩ := step_of_lists (a0 := 0x10000 + 960) (cap := 2 ^ 20) (c := .calloc 10 20) (os := false) (o := some 160) (by decide) (by decide) (by decide) (by decide)
    (fun x => BitVec.ofNat 8 (x * x)) someCalls someCalls_seen (by decide +kernel)
  exact ⟨es, s, s', r, e, by decide⟩

/-- `C79_keep`: the block at 0 is kept while the one at 48 is written to and moved, and a byte in the free chunk at 160 changes -/
example : ∃ es s es' s', Run (0x10000 + 960) (2 ^ 20) es s ∧ Path (0x10000 + 960) s es' s' ∧ es'.length = 3 ∧ (0, 40) ∈ s.live ∧ (∀ e ∈ es', ¬touches 0 e) ∧
    s'.cs.mem 70 ≠ s.cs.mem 70 := by
  obtain ⟨es, s, s', r, -, h, e⟩ := step_of_lists (a0 := 0x10000 + 960) (cap := 2 ^ 20) (c := .calloc 10 20) (os := false) (o := some 160) (by decide) (by decide) (by decide) (by decide)
    (fun x => BitVec.ofNat 8 (x * x)) someCalls someCalls_seen (by decide +kernel)
  have hw : Next (0x10000 + 960) s (.write 48) ⟨{ s.cs with mem := fun x => if x = 70 then s.cs.mem 70 + 1 else s.cs.mem x }, s.live⟩ :=
    .write (p := 48) (r := 100) (by rw [h]; decide) (fun x hx => if_neg (by omega))
  have r1 := Run.next r hw
  obtain ⟨s1, o1, h1⟩ := C78_total (by decide) (by decide) (by decide) r1 false (.malloc 30) (by simp [named])
  have hl : (48, 100) ∈ s.live := by rw [h]; decide
  have k1 := C79_keep (by decide) (by decide) (by decide) r1 (.next .here (.call h1)) (q := 48) (n := 100) hl (by simp [touches, named])
  refine ⟨es, s, [.scratch, .call (.malloc 30) false o1, .write 48], ⟨s1.cs, s1.live⟩, r, .next (.next (.next .here hw) (.call h1)) (.scratch (m := s1.cs.mem) fun _ _ => rfl), rfl,
    by rw [h]; decide, by simp [touches, named], ?_⟩
  have := k1.2 6 (by omega)
  simp only at this ⊢
  rw [this]
  simp

/-- `C78_data_independent`: the same calls, but only one of the heaps is written to -/
example : ∃ es es' s s', Run (0x10000 + 960) (2 ^ 20) es s ∧ Run (0x7f0000001000 + 960) (2 ^ 20) es' s' ∧ asked es = asked es' ∧ es ≠ es' ∧
    (∀ k ∈ aligns ((asked es).reverse.map (·.1)), 0x10000 % 2 ^ k = 0x7f0000001000 % 2 ^ k) := by
  obtain ⟨b, e, -⟩ := reach_seen (by omega) someCalls_seen
  have e' := e
  rw [C61_actual_partial (b1 := 0x10000) (b2 := 0x7f0000001000) _ _ (by decide)] at e'
  obtain ⟨es, s, r, h1, -, h3, -⟩ := run_of_lists (by decide) (by decide) (by decide) (by decide) (fun _ => 0) someCalls e
  obtain ⟨es', s', r', h1', -, -, -⟩ := run_of_lists (by decide) (by decide) (by decide) (by decide) (fun _ => 255) someCalls e'
  have hw : Next (0x10000 + 960) s (.write 48) ⟨{ s.cs with mem := fun x => if x = 70 then s.cs.mem 70 + 1 else s.cs.mem x }, s.live⟩ :=
    .write (p := 48) (r := 100) (by rw [h3]; exact (by decide : (48, 100) ∈ someLive)) (fun x hx => if_neg (by omega))
  by_cases hne : es = es'
  · refine ⟨_, es', _, s', .next r hw, r', by rw [asked, h1, h1'], ?_, ?_⟩
    · rw [hne]; intro hc; simpa using congrArg List.length hc
    · rw [asked, h1, List.reverse_reverse]; decide
  · refine ⟨es, es', s, s', r, r', by rw [h1, h1'], hne, ?_⟩
    rw [h1, List.reverse_reverse]; decide

end Verif.Tag
