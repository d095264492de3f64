import Verif.Mix.Settled
import Verif.Crit.SeqProps
/-!
# C111: programs without races, with locks and barriers, behave as if executed sequentially
-/
namespace Verif.Crit.Mix
open Verif.Rma Verif.Lock
open Verif.Vis (NoWriter Only)

section
variable {T : Sys} {P : Prog} {own : Owns} {used : Nat × Int → Prop} {looks : Nat → Nat → Int → Prop}

/-- the rules of C111 are those of C114 when no operation is one a barrier completes -/
theorem Drf.toC (hD : Drf T P own used looks) : DrfC T P (fun _ _ => False) own used looks := by
  have hd : ∀ {p i b}, DirtyC P (fun _ _ => False) p i b → Dirty P p i b := fun ⟨j, h1, h2, h3, _⟩ => ⟨j, h1, h2, h3⟩
  have hp : ∀ {p i b}, PinnedC P (fun _ _ => False) p i b → Pinned P p i b := fun ⟨j, h1, h2, h3, _⟩ => ⟨j, h1, h2, h3⟩
  refine ⟨hD.dep, fun p hp i f hf a ha => ?_, fun p hp i f hf m b hb => ?_, fun p hpn i f hf m b hb => ?_, hD.sole, fun p hpn i l hl b hb => ?_,
    fun p hpn i hi b j hj => ?_, hD.owned, hD.locks⟩
  · exact ⟨(hD.look p hp i f hf a ha).1, fun h => (hD.look p hp i f hf a ha).2 (hd h)⟩
  · obtain ⟨h1, h2, h3⟩ := hD.reads p hp i f hf m b hb
    exact ⟨h1, h2, fun h => h3 (hd h)⟩
  · obtain ⟨h1, h2, h3, h4⟩ := hD.writes p hpn i f hf m b hb
    exact ⟨h1, fun h => h2 (hd h), fun h => h3 (hp h), h4⟩
  · obtain ⟨h1, h2⟩ := hD.clears p hpn i l hl b hb
    exact ⟨fun h => h1 (hd h), fun h => h2 (hp h)⟩
  · rcases hj with h | h
    · exact (hD.bars p hpn i hi b).1 (hd ⟨j, h⟩)
    · exact (hD.bars p hpn i hi b).2 (hp ⟨j, h⟩)

theorem PRun.toC {x y : PX} {l : List Ev} (r : PRun T P x l y) : CRun T P (fun _ _ => False) x l y := by
  induction r with
  | nil => exact CRun.nil _
  | snoc r s ih => exact ih.snoc s fun _ _ _ _ h => h.elim

/-- **Programs without races, with locks and barriers, see a sequential execution.** At every instant of every execution of a program that follows
    the rules there is a sequential execution (one action at a time, each done at once, on one memory, locks exclusive, barriers passed by all at
    once) that is as far - a PE that waits for a lock has not taken it, one that has yet to return from a barrier may have passed it - and in which
    every PE that is in no blocking call finds in every byte that it may read, and has not written without waiting, what is in the library's memory;
    nothing in flight will change it. -/
theorem C111_sequential_partial (wf : T.lk.WF) (un : T.lk.Uniform) (hP : Proper T P) (hD : Drf T P own used looks) {x y : PX} {l : List Ev}
    (h0 : Start T x.x) (hp : x.pos = fun _ => 0) (r : PRun T P x l y) :
    ∃ s, SRun T.lk.n P ⟨x.x.g.mem, fun _ => 0⟩ s ∧
      (∀ p < T.lk.n, s.pos p = y.pos p ∨ (s.pos p + 1 = y.pos p ∧ ∃ l, (P p)[s.pos p]? = some (.set l) ∧ InSet (y.x.pc l p)) ∨
        (s.pos p = y.pos p + 1 ∧ (P p)[y.pos p]? = some .bar ∧ y.x.g.lv p < y.x.g.arr p)) ∧
      ∀ p < T.lk.n, y.x.g.busy p = [] → ∀ b : Nat × Int, b.1 < T.lk.n → CanR P own p (s.pos p) b → ¬ Dirty P p (s.pos p) b →
        y.x.g.mem b.1 b.2 = s.mem b.1 b.2 ∧ NoWriter y.x.g b := by
  obtain ⟨s, h1, h2, h3⟩ := C114_sequential_partial wf un hP hD.toC h0 hp r.toC
  exact ⟨s, h1, h2, fun p hp hbz b hb hr hd => h3 p hp hbz b hb hr fun ⟨j, j1, j2, j3, _⟩ => hd ⟨j, j1, j2, j3⟩⟩

/-- **They end as a sequential execution ends.** When all PEs have come to the end of such a program and no PE is in a call, there is a complete
    sequential execution from the same memory at whose end every byte that is used, and for which nothing is pending, has the value it has in the
    library's memory; nothing in flight will change it. -/
theorem C111_end_partial (wf : T.lk.WF) (un : T.lk.Uniform) (hP : Proper T P) (hD : Drf T P own used looks) {x y : PX} {l : List Ev}
    (h0 : Start T x.x) (hp : x.pos = fun _ => 0) (r : PRun T P x l y) (he : ∀ p < T.lk.n, y.pos p = (P p).length)
    (hf : ∀ p < T.lk.n, T.lk.free y.x.words p = true ∧ y.x.g.busy p = []) :
    ∃ s, SRun T.lk.n P ⟨x.x.g.mem, fun _ => 0⟩ s ∧ (∀ p < T.lk.n, s.pos p = (P p).length) ∧
      ∀ b : Nat × Int, b.1 < T.lk.n → used b → (∀ q < T.lk.n, ¬ Dirty P q (P q).length b) →
        y.x.g.mem b.1 b.2 = s.mem b.1 b.2 ∧ NoWriter y.x.g b := by
  obtain ⟨s, h1, h2, h3⟩ := C114_end_partial wf un hP hD.toC h0 hp r.toC he hf
  exact ⟨s, h1, h2, fun b hb hu hd => h3 b hb hu fun q hq ⟨j, j1, j2, j3, _⟩ => hd q hq ⟨j, j1, j2, j3⟩⟩

end

end Verif.Crit.Mix
