import Verif.Lnk.Props
/-!
# The free lists of the symmetric heap in memory: examples
-/
namespace Verif.Lnk
open Heap (Heap Call callocReq aligns)
open Dl (seen someCalls someCalls_seen someLive someHeap reach_seen run_snoc)
open Tag (Mem At named)

/-- a call after a sequence of calls, with links -/
theorem step_of_lists {base cap : Nat} (hb : 16 ∣ base) (hc : 16 ∣ cap) (h64 : base + cap < 2 ^ 64) (hm : 1024 < cap) (m : Mem) (cs : List (Call × Bool)) {c : Call} {os : Bool}
    {h : Heap} {l : List (Nat × Nat)} {ans : List (Option Nat)} {o : Option Nat}
    (e : seen (Dl.run (base + 960) (Dl.new cap) cs) = some (h, l, ans)) (e' : (seen (Dl.run (base + 960) (Dl.new cap) (cs ++ [(c, os)]))).map (·.2.2) = some (ans ++ [o])) :
    ∃ es s s', Run base cap es s ∧ asked es = cs.reverse ∧ s.live = l ∧ step base s os c = some (s', o) := by
  obtain ⟨b, e1, -⟩ := reach_seen hm e
  obtain ⟨es, s, r, h1, -, h3⟩ := C82_realised hb hc h64 hm m cs e1
  rw [run_snoc, e1] at e'
  simp only [Option.bind_some] at e'
  cases hs : Dl.step (base + 960) ⟨h, b, l⟩ os c with
  | none => rw [hs] at e'; cases e'
  | some y =>
    obtain ⟨t', o'⟩ := y
    rw [hs] at e'
    simp only [Option.map_some, seen, Option.some.injEq, List.append_cancel_left_eq, List.cons.injEq, and_true] at e'
    subst e'
    have hl : ∀ p, named c = some p → ∃ r, (p, r) ∈ s.live := by
      intro p hp
      have := Dl.legal_of_step hs
      rw [h3]
      cases c with
      | malloc => cases hp
      | calloc => cases hp
      | align => cases hp
      | realloc q req => injection hp with hp; subst hp; exact this
      | free q => injection hp with hp; subst hp; exact this
    obtain ⟨s', o1, k⟩ := C82_total hb hc h64 r os c hl
    obtain ⟨t1, k1, -⟩ := C82_refines hb hc h64 (.next r (.call k))
    simp only [asked, answers, h1, List.reverse_cons, List.reverse_reverse] at k1
    rw [run_snoc, e1] at k1
    simp only [Option.bind_some, hs, Option.map_some, Option.some.injEq, Prod.mk.injEq] at k1
    have := (List.append_inj' k1.2 rfl).2
    simp only [List.cons.injEq, and_true] at this
    subst this
    exact ⟨es, s, s', r, h1, h3, k⟩

/-- `C82_total`, `C82_realised`, `C82_refines`, `C82_realloc`, `C82_bounds`, `C82_create_bounds`: after `someCalls`, in a heap with some initial contents, a block of 100
bytes moves to a larger one -/
example : ∃ es s s', Run 0x10000 (2 ^ 20) es s ∧ asked es = someCalls.reverse ∧ (48, 100) ∈ s.live ∧ step 0x10000 s false (.realloc 48 2000) = some (s', some 8208) := by
  obtain ⟨es, s, s', r, h1, h, e⟩ := step_of_lists (base := 0x10000) (cap := 2 ^ 20) (c := .realloc 48 2000) (os := false) (o := some 8208) (by decide) (by decide) (by decide) (by decide)
    (fun x => BitVec.ofNat 8 (x * x)) someCalls someCalls_seen (by decide +kernel)
  exact ⟨es, s, s', r, h1, by rw [h]; decide, e⟩

/-- `C82_realloc_null`: a request for more than the heap has -/
example : ∃ es s s', Run 0x10000 (2 ^ 20) es s ∧ (48, 100) ∈ s.live ∧ step 0x10000 s false (.realloc 48 2000000) = some (s', none) := by
  obtain ⟨es, s, s', r, -, h, e⟩ := step_of_lists (base := 0x10000) (cap := 2 ^ 20) (c := .realloc 48 2000000) (os := false) (o := none) (by decide) (by decide) (by decide) (by decide)
    (fun x => BitVec.ofNat 8 (x * x)) someCalls someCalls_seen (by decide +kernel)
  exact ⟨es, s, s', r, by rw [h]; decide, e⟩

/-- `C82_calloc`: 200 bytes from a free chunk, which is in a trie -/
example : ∃ es s s', Run 0x10000 (2 ^ 20) es s ∧ step 0x10000 s false (.calloc 10 20) = some (s', some 160) ∧ callocReq 10 20 = 200 := by
  obtain ⟨es, s, s', r, -, h, e⟩ := step_of_lists (base := 0x10000) (cap := 2 ^ 20) (c := .calloc 10 20) (os := false) (o := some 160) (by decide) (by decide) (by decide) (by decide)
    (fun x => BitVec.ofNat 8 (x * x)) someCalls someCalls_seen (by decide +kernel)
  exact ⟨es, s, s', r, e, by decide⟩

/-- `C82_keep`: the block at 0 is kept while the one at 48 is written to and another one is allocated -/
example : ∃ es s es' s', Run 0x10000 (2 ^ 20) es s ∧ Path 0x10000 s es' s' ∧ es'.length = 2 ∧ (0, 40) ∈ s.live ∧ (∀ e ∈ es', ¬touches 0 e) ∧ s'.cs.mem 66550 ≠ s.cs.mem 66550 := by
  obtain ⟨es, s, s', r, -, h, e⟩ := step_of_lists (base := 0x10000) (cap := 2 ^ 20) (c := .calloc 10 20) (os := false) (o := some 160) (by decide) (by decide) (by decide) (by decide)
    (fun x => BitVec.ofNat 8 (x * x)) someCalls someCalls_seen (by decide +kernel)
  have hw : Next 0x10000 s (.write 48) ⟨{ s.cs with mem := fun x => if x = 66550 then s.cs.mem 66550 + 1 else s.cs.mem x }, s.live⟩ :=
    .write (p := 48) (r := 100) (by rw [h]; decide) (fun x hx => if_neg (by unfold first at hx; omega))
  have r1 := Run.next r hw
  obtain ⟨s1, o1, h1⟩ := C82_total (by decide) (by decide) (by decide) r1 false (.malloc 30) (by simp [named])
  have hl : (48, 100) ∈ s.live := by rw [h]; decide
  have k1 := C82_keep (by decide) (by decide) (by decide) r1 (.next .here (.call h1)) (q := 48) (n := 100) hl (by simp [touches, named])
  refine ⟨es, s, [.call (.malloc 30) false o1, .write 48], s1, r, .next (.next .here hw) (.call h1), rfl, by rw [h]; decide, by simp [touches, named], ?_⟩
  have := k1.2 6 (by omega)
  simp only [first] at this ⊢
  rw [this]
  simp

/-- `C82_data_independent`: the same calls, from different contents, at different bases -/
example : ∃ es es' s s', Run 0x10000 (2 ^ 20) es s ∧ Run 0x7f0000001000 (2 ^ 20) es' s' ∧ asked es = asked es' ∧
    (∀ k ∈ aligns ((asked es).reverse.map (·.1)), 0x10000 % 2 ^ k = 0x7f0000001000 % 2 ^ k) := by
  obtain ⟨b, e, -⟩ := reach_seen (by omega) someCalls_seen
  have e' := e
  rw [Dl.C61_actual_partial (b1 := 0x10000) (b2 := 0x7f0000001000) _ _ (by decide)] at e'
  obtain ⟨es, s, r, h1, -⟩ := C82_realised (base := 0x10000) (by decide) (by decide) (by decide) (by decide) (fun _ => 0) someCalls e
  obtain ⟨es', s', r', h1', -⟩ := C82_realised (base := 0x7f0000001000) (by decide) (by decide) (by decide) (by decide) (fun _ => 255) someCalls e'
  refine ⟨es, es', s, s', r, r', by rw [h1, h1'], ?_⟩
  rw [h1, List.reverse_reverse]; decide

/-- `C82_lists`, `C82_tries`: after `someCalls` there are free chunks of 32, 672 and 960 bytes; at most one of them is `dv`, so both
kinds of links exist or the trie has two nodes -/
example : ∃ es s t os, Run 0x10000 (2 ^ 20) es s ∧ Dl.run (0x10000 + 960) (Dl.new (2 ^ 20)) (asked es).reverse = some (t, os) ∧ At 0 t.heap.chunks 160 960 .free ∧
    At 0 t.heap.chunks 3456 672 .free ∧ At 0 t.heap.chunks 4160 32 .free := by
  obtain ⟨b, e, -⟩ := reach_seen (by omega) someCalls_seen
  obtain ⟨es, s, r, h1, -⟩ := C82_realised (base := 0x10000) (by decide) (by decide) (by decide) (by decide) (fun _ => 0) someCalls e
  refine ⟨es, s, _, _, r, by rw [h1, List.reverse_reverse]; exact e, ?_, ?_, ?_⟩
  · exact ⟨[⟨48, .user 40⟩, ⟨112, .user 100⟩], _, rfl, rfl⟩
  · exact ⟨[⟨48, .user 40⟩, ⟨112, .user 100⟩, ⟨960, .free⟩, ⟨2016, .user 2000⟩, ⟨320, .user 300⟩], _, rfl, rfl⟩
  · exact ⟨[⟨48, .user 40⟩, ⟨112, .user 100⟩, ⟨960, .free⟩, ⟨2016, .user 2000⟩, ⟨320, .user 300⟩, ⟨672, .free⟩, ⟨32, .user 20⟩], _, rfl, rfl⟩

end Verif.Lnk
