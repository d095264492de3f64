import Verif.Dl.Gap
/-!
# Histories: where C71 and C72 fail, and examples
-/
namespace Verif.Dl
open Heap

theorem run_snoc {a0 : Nat} {c : Call} {os : Bool} : ∀ (cs : List (Call × Bool)) (s : St), run a0 s (cs ++ [(c, os)]) =
    (run a0 s cs).bind (fun x => (step a0 x.1 os c).map (fun y => (y.1, x.2 ++ [y.2]))) := by
  intro cs
  induction cs with
  | nil =>
    intro s
    simp only [List.nil_append, run, Option.bind_some]
    cases step a0 s os c with
    | none => rfl
    | some y => rfl
  | cons d cs ih =>
    intro s
    simp only [List.cons_append, run]
    cases step a0 s d.2 d.1 with
    | none => rfl
    | some y =>
      simp only [ih]
      cases run a0 y.1 cs with
      | none => rfl
      | some z =>
        simp only [Option.bind_some, Option.map_some, Option.map_map]
        cases step a0 z.1 os c with
        | none => rfl
        | some y => rfl

theorem run_reach {a0 cap : Nat} : ∀ (cs : List (Call × Bool)) {s s' : St} {os : List (Option Nat)}, Reach a0 cap s → run a0 s cs = some (s', os) → Reach a0 cap s' := by
  intro cs
  induction cs with
  | nil =>
    intro s s' os r e
    simp only [run, Option.some.injEq, Prod.mk.injEq] at e
    rw [← e.1]; exact r
  | cons c cs ih =>
    intro s s' os r e
    simp only [run] at e
    cases hs : step a0 s c.2 c.1 with
    | none => rw [hs] at e; cases e
    | some y =>
      rw [hs] at e
      cases hr : run a0 y.1 cs with
      | none => simp only [hr] at e; cases e
      | some z =>
        simp only [hr, Option.map_some, Option.some.injEq, Prod.mk.injEq] at e
        rw [← e.1]
        exact ih (.step r hs) hr

/-- what can be seen of a result -/
def seen (x : Option (St × List (Option Nat))) : Option (Heap × List (Nat × Nat) × List (Option Nat)) := x.map (fun y => (y.1.heap, y.1.live, y.2))

/-- a new heap of `cap` bytes -/
def new (cap : Nat) : St := ⟨⟨[], some (cap - 1024)⟩, .init, []⟩

theorem reach_seen {a0 cap : Nat} {cs : List (Call × Bool)} {h : Heap} {live : List (Nat × Nat)} {os : List (Option Nat)} (hc : 1024 < cap)
    (e : seen (run a0 (new cap) cs) = some (h, live, os)) : ∃ b, run a0 (new cap) cs = some (⟨h, b, live⟩, os) ∧ Reach a0 cap ⟨h, b, live⟩ := by
  cases hr : run a0 (new cap) cs with
  | none => rw [hr] at e; cases e
  | some x =>
    obtain ⟨⟨h', b, l'⟩, o'⟩ := x
    rw [hr] at e
    simp only [seen, Option.map_some, Option.some.injEq, Prod.mk.injEq] at e
    obtain ⟨rfl, rfl, rfl⟩ := e
    refine ⟨b, rfl, run_reach cs (.init ?_) hr⟩
    unfold create
    rw [if_pos (by simp only [hdr, foot]; omega)]
    simp only [hdr, foot, Nat.sub_sub]

/-- calls in a heap of 4 TiB: a block of 1 TiB is freed, and all but 16 bytes of the rest is taken -/
def bigCalls : List (Call × Bool) := [(.malloc (2 ^ 40), false), (.malloc 16, false), (.free 0, false), (.malloc (3 * 2 ^ 40 - 1112), false)]

/-- the heap after `bigCalls` -/
def bigHeap : Heap := ⟨[⟨2 ^ 40 + 16, .free⟩, ⟨32, .user 16⟩, ⟨3 * 2 ^ 40 - 1104, .user (3 * 2 ^ 40 - 1112)⟩], some 32⟩

/-- **C71 fails.** In a heap of 4 TiB with 1 TiB free in one piece, a request for half of that is not served: `compute_tree_index`
(dlmalloc.c L2833-2845) drops the upper bits of the size, so the chunk is in a bin for small sizes. -/
theorem C71_fails : ∃ s a, Reach (0x10000 + 960) (2 ^ 42) s ∧ Gap (2 ^ 42) s.live a (2 ^ 39 + 48) ∧ ∀ os, ∃ s', step (0x10000 + 960) s os (.malloc (2 ^ 39)) = some (s', none) := by
  have h1 : seen (run (0x10000 + 960) (new (2 ^ 42)) bigCalls) =
      some (bigHeap, [(2 ^ 40 + 48, 3 * 2 ^ 40 - 1112), (2 ^ 40 + 16, 16)], [some 0, some (2 ^ 40 + 16), none, some (2 ^ 40 + 48)]) := by decide +kernel
  have h2 : ∀ os, (seen (run (0x10000 + 960) (new (2 ^ 42)) (bigCalls ++ [(.malloc (2 ^ 39), os)]))).map (fun x => x.2.2) =
      some [some 0, some (2 ^ 40 + 16), none, some (2 ^ 40 + 48), none] := by decide +kernel
  obtain ⟨b, e, r⟩ := reach_seen (by omega) h1
  refine ⟨_, 0, r, ⟨by omega, ?_⟩, fun os => ?_⟩
  · intro x hx
    simp only [List.mem_cons, List.not_mem_nil, or_false] at hx
    rcases hx with rfl | rfl
    · right; show 0 + (2 ^ 39 + 48) ≤ 2 ^ 40 + 48; omega
    · right; show 0 + (2 ^ 39 + 48) ≤ 2 ^ 40 + 16; omega
  · have h2 := h2 os
    rw [run_snoc, e] at h2
    simp only [Option.bind_some, seen] at h2
    generalize step _ _ os (.malloc (2 ^ 39)) = x at *
    cases x with
    | none => cases h2
    | some y =>
      obtain ⟨s', o⟩ := y
      simp only [Option.map_some, Option.some.injEq, List.cons_append, List.nil_append, List.cons.injEq, and_true, true_and] at h2
      rw [h2]
      exact ⟨s', rfl⟩

/-- **C72 fails.** In a heap of 4 TiB, a request for 512 GiB is served from the untouched rest though it fits in a free chunk. -/
theorem C72_fails : ∃ s s' q, Reach (0x10000 + 960) (2 ^ 42) s ∧ FreeAt s.heap 0 (2 ^ 40 + 16) ∧
    step (0x10000 + 960) s false (.malloc (2 ^ 39)) = some (s', some q) ∧ ∀ y, ¬FreeAt s.heap q y := by
  have h1 : seen (run (0x10000 + 960) (new (2 ^ 42)) (bigCalls.take 3)) =
      some (⟨[⟨2 ^ 40 + 16, .free⟩, ⟨32, .user 16⟩], some (3 * 2 ^ 40 - 1072)⟩, [(2 ^ 40 + 16, 16)], [some 0, some (2 ^ 40 + 16), none]) := by decide +kernel
  have h2 : (seen (run (0x10000 + 960) (new (2 ^ 42)) (bigCalls.take 3 ++ [(.malloc (2 ^ 39), false)]))).map (fun x => x.2.2) =
      some [some 0, some (2 ^ 40 + 16), none, some (2 ^ 40 + 48)] := by decide +kernel
  obtain ⟨b, e, r⟩ := reach_seen (by omega) h1
  rw [run_snoc, e] at h2
  simp only [Option.bind_some, seen] at h2
  generalize hx : step _ _ false (.malloc (2 ^ 39)) = x at *
  cases x with
  | none => cases h2
  | some y =>
    obtain ⟨s', o⟩ := y
    simp only [Option.map_some, Option.some.injEq, List.cons_append, List.nil_append, List.cons.injEq, and_true, true_and] at h2
    subst h2
    refine ⟨_, s', 2 ^ 40 + 48, r, ⟨[], [⟨32, .user 16⟩], rfl, rfl⟩, hx, ?_⟩
    intro y hy
    rw [freeAt_iff (by intro c hc; simp only [List.mem_cons, List.not_mem_nil, or_false] at hc; rcases hc with rfl | rfl <;> decide)] at hy
    have : fmap 0 [⟨2 ^ 40 + 16, .free⟩, ⟨32, .user 16⟩] (2 ^ 40 + 48) = none := by decide +kernel
    simp only [this] at hy
    cases hy

/-- calls in a heap of 1 MiB that use a small bin, a tree bin, `dv`, `top`, an aligned block, and resizing in place and by copying -/
def someCalls : List (Call × Bool) := [(.malloc 100, false), (.malloc 1000, false), (.malloc 3000, false), (.malloc 50, false), (.free 0, false),
  (.free 1120, false), (.malloc 2000, false), (.malloc 40, false), (.align 8 300, false), (.realloc 112 4000, false), (.realloc 4128 20, false), (.calloc 10 10, false)]

/-- the heap after `someCalls` -/
def someHeap : Heap := ⟨[⟨48, .user 40⟩, ⟨112, .user 100⟩, ⟨960, .free⟩, ⟨2016, .user 2000⟩, ⟨320, .user 300⟩, ⟨672, .free⟩, ⟨32, .user 20⟩, ⟨32, .free⟩,
  ⟨4016, .user 4000⟩], some 1039344⟩

/-- the blocks after `someCalls` -/
def someLive : List (Nat × Nat) := [(48, 100), (4128, 20), (4192, 4000), (3136, 300), (0, 40), (1120, 2000)]

theorem someCalls_seen : seen (run (0x10000 + 960) (new (2 ^ 20)) someCalls) = some (someHeap, someLive, [some 0, some 112, some 1120, some 4128, none, none,
    some 1120, some 0, some 3136, some 4192, some 4128, some 48]) := by decide +kernel

/-- a history with blocks, holes and a rest: the hypotheses of C70, C71 and C72 -/
example : ∃ s, Reach (0x10000 + 960) (2 ^ 20) s ∧ Legal s (.realloc 48 700) ∧ Gap (2 ^ 20) s.live 212 (848 + 48) ∧ FreeAt s.heap 160 960 ∧ FreeAt s.heap 3456 672 ∧
    (600 + 23) / 16 * 16 ≤ 672 := by
  obtain ⟨b, e, r⟩ := reach_seen (by omega) someCalls_seen
  refine ⟨_, r, ⟨100, (by decide : (48, 100) ∈ someLive)⟩,
    ⟨by omega, (by decide : ∀ x ∈ someLive, x.1 + x.2 + 64 ≤ 212 ∨ 212 + (848 + 48) ≤ x.1)⟩, ⟨_, _, (show someHeap.chunks = [⟨48, .user 40⟩, ⟨112, .user 100⟩] ++ ⟨960, .free⟩ :: _ from rfl), rfl⟩,
    ⟨_, _, (show someHeap.chunks = [⟨48, .user 40⟩, ⟨112, .user 100⟩, ⟨960, .free⟩, ⟨2016, .user 2000⟩, ⟨320, .user 300⟩] ++ ⟨672, .free⟩ :: _ from rfl), rfl⟩, by decide⟩

/-- **C61 fails.** `shmem_align(8192, 100)` as first call gives different offsets on two PEs whose heaps start at different pages. -/
theorem C61_actual_fails : ∃ b1 b2 : Nat, 4096 ∣ b1 ∧ 4096 ∣ b2 ∧
    (seen (run (b1 + 960) (new (2 ^ 20)) [(.align 13 100, false)])).map (·.2.2) = some [some 7232] ∧
    (seen (run (b2 + 960) (new (2 ^ 20)) [(.align 13 100, false)])).map (·.2.2) = some [some 3136] :=
  ⟨0x10000, 0x11000, by decide, by decide, by decide +kernel, by decide +kernel⟩

/-- freeing everything after `someCalls`: the hypotheses of `C62_restart` -/
example : ∃ s, Reach (0x10000 + 960) (2 ^ 20) s ∧ s.live = [] := by
  have h : seen (run (0x10000 + 960) (new (2 ^ 20)) (someCalls ++ [(.free 4192, false), (.free 48, false), (.free 4128, false), (.free 0, false), (.free 3136, false),
      (.free 1120, false)])) = some (⟨[], some (2 ^ 20 - 1024)⟩, [], [some 0, some 112, some 1120, some 4128, none, none,
      some 1120, some 0, some 3136, some 4192, some 4128, some 48, none, none, none, none, none, none]) := by decide +kernel
  obtain ⟨b, e, r⟩ := reach_seen (by omega) h
  exact ⟨_, r, rfl⟩

/-- heaps at different addresses that agree modulo the alignments of `someCalls`: the hypotheses of `C61_actual_partial` -/
example : (∀ k ∈ aligns (someCalls.map (·.1)), 0x10000 % 2 ^ k = 0x7f0000001000 % 2 ^ k) ∧ 8 ∈ aligns (someCalls.map (·.1)) := by decide

end Verif.Dl
