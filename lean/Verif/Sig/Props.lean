import Verif.Sig.Inv
/-!
# C108: programs that synchronise with flags behave as they mean

For every program (any number of PEs, any number of actions), every configuration and every interleaving: whatever a PE may rely on by the rules
of OpenSHMEM (`Known`) is there.
-/
namespace Verif.Sig
open Verif.Sobj Verif.Rma Verif.Vis
open Verif.P2p (CTy)

section
variable {S : Sys} {D : Nat × Int → Prop} {P : Prog} {M : Mems} {acts : Nat → List Act} {F : Mems}

/-- **C108** (what a PE may rely on): a byte that PE `p` may rely on before its action number `i` has its final value from when `p` has done `i`
actions (and is not inside one) on, and nothing in flight will change it. -/
theorem C108_relied (hm : Means S.npes D P M acts F) {l : List Ev} {x : X} (r : XRun S D P (start M) l x) {p i : Nat} (hp : p < S.npes)
    (hi : i < x.pos p ∨ (i = x.pos p ∧ x.g.busy p = [])) {b : Nat × Int} (hk : Known S.npes D M acts p i b) :
    x.g.mem b.1 b.2 = F b.1 b.2 ∧ NoWriter x.g b := by
  have h := known_settled hm (inv_run hm r) hk hp (by omega) (by rcases hi with h | h; exacts [Or.inl h, Or.inr h.2])
  exact ⟨h.val, h.none_⟩

/-- **C108** (the program runs as it means): a PE that can go on takes the action of its meaning, in every execution. -/
theorem C108_program (hm : Means S.npes D P M acts F) {l : List Ev} {x : X} (r : XRun S D P (start M) l x) {p : Nat} (hf : Free S x.g p) :
    P.next p (x.pos p) (x.g.mem p) = (acts p)[x.pos p]? := next_ok hm (inv_run hm r) hf

/-- **C108** (a message): PE `q` puts data, calls fence or quiet and then writes the flag, and nobody else does; when PE `p` has waited for the
flag, the data are there. -/
theorem C108_message (hm : Means S.npes D P M acts F) {l : List Ev} {x : X} (r : XRun S D P (start M) l x) {p q i j k : Nat} (hp : p < S.npes)
    (hq : q < S.npes) {c d : Act} {b : Nat × Int} (hd : (acts q)[i]? = some d) (hb : d.writes q b) (hfe : QuietBetween (acts q) i j)
    {a : Int} {t : CTy} {op : Int} {v : Nat} (hw : (acts p)[k]? = some (.wait a t op v)) (h0 : ¬ Passes t op v (word (M p) a t))
    (hc : (acts q)[j]? = some c) (hcw : ∀ y, a ≤ y → y < a + (t.bits / 8 : Nat) → c.writes q (p, y)) (hk : k < x.pos p) :
    x.g.mem b.1 b.2 = F b.1 b.2 ∧ NoWriter x.g b := by
  have hs : Settled S.npes acts F x b := by
    have inv := inv_run hm r
    obtain ⟨q', hq', j', hj', c', y, hc', h1, h2, h3⟩ := inv.waited p hp k hk a t op v hw h0
    obtain ⟨rfl, rfl⟩ := hm.single q' hq' q hq j' j c' c (p, y) hc' hc h3 (hcw y h1 h2)
    exact known_settled hm inv (.quiet i d hd hb hfe) hq (by omega) (Or.inl hj')
  exact ⟨hs.val, hs.none_⟩

/-- **C108** (the end): when all PEs have done all their actions, and no PE has ended with a put or a non-blocking get that no quiet followed, all
bytes have their final values. -/
theorem C108_result (hm : Means S.npes D P M acts F) {l : List Ev} {x : X} (r : XRun S D P (start M) l x)
    (he : ∀ p < S.npes, x.pos p = (acts p).length ∧ x.g.busy p = [])
    (hq : ∀ p < S.npes, ∀ i a, (acts p)[i]? = some a → a.lateWrite → QuietBetween (acts p) i (acts p).length) {b : Nat × Int} (hb : D b) :
    x.g.mem b.1 b.2 = F b.1 b.2 ∧ NoWriter x.g b := by
  have inv := inv_run hm r
  rcases inv.byte b hb with ⟨h1, h2, h3⟩ | h1 | ⟨p, j, a, own, src, f⟩
  · refine ⟨h3.trans (hm.rest b hb fun p hp a ha hw => h1 ?_).symm, h2⟩
    obtain ⟨j, hj⟩ := List.getElem?_of_mem ha
    exact ⟨p, hp, j, a, by rw [(he p hp).1]; exact (List.getElem?_eq_some_iff.mp hj).1, hj, hw⟩
  · exact ⟨h1.val, h1.none_⟩
  · exfalso
    cases own with
    | none => exact (f.onone rfl).1 (he p f.hp).2
    | some pd =>
      refine f.oquiet ?_
      rw [(he p f.hp).1]
      exact hq p f.hp j a f.ha (f.osome pd rfl)

/-- two executions of the program that have got equally far agree on everything PEs may rely on, whatever the interleaving -/
theorem C108_same (hm : Means S.npes D P M acts F) {l l' : List Ev} {x x' : X} (r : XRun S D P (start M) l x) (r' : XRun S D P (start M) l' x')
    {p i : Nat} (hp : p < S.npes) (hi : i < x.pos p) (hi' : i < x'.pos p) {b : Nat × Int} (hk : Known S.npes D M acts p i b) :
    x.g.mem b.1 b.2 = x'.g.mem b.1 b.2 :=
  (C108_relied hm r hp (Or.inl hi) hk).1.trans (C108_relied hm r' hp (Or.inl hi') hk).1.symm

end

end Verif.Sig
