import Verif.Mix.Exists
import Verif.Crit.SeqEx
/-!
# C111: a counter behind a lock, then a barrier, then every PE gets the counter
-/
namespace Verif.Crit.Mix
open Verif.Rma Verif.Lock

/-- an action of a program without barriers -/
def emb : Crit.PAct → PAct
  | .set l => .set l
  | .clear l => .clear l
  | .quiet => .quiet
  | .data f => .data f

/-- the rounds of C109 (lock_impl.h L27-146, rma_impl.h L107-243), `shmem_barrier_all` (coll_impl.h L12-32), and a get of the counter -/
def tally (h : Nat) (c : Int) (tm nw : Nat → Int) (K : Nat) : Prog := fun p =>
  (counter h c tm nw K p).map emb ++ [.bar, .data fun _ => .get h false (eight (tm p) c)]

/-- the counter belongs to the lock, and to everybody (for reading) after the barrier -/
def tallyOwn (n h : Nat) (c : Int) (tm nw : Nat → Int) (e : Nat) (b : Nat × Int) : Option Own :=
  if e = 0 then counterOwn n h c tm nw b
  else if b.1 < n ∧ b.1 = h ∧ c ≤ b.2 ∧ b.2 < c + 8 then some .const else counterOwn n h c tm nw b

def tallyLooks (tm : Nat → Int) (K p i : Nat) (a : Int) : Prop := i < 13 * K ∧ counterLooks tm p i a

section
variable {T : Sys} {h : Nat} {c : Int} {tm nw : Nat → Int} {K : Nat}

theorem emb_set {a : Crit.PAct} {l : Nat} (e : emb a = .set l) : a = .set l := by cases a <;> cases e; rfl
theorem emb_clear {a : Crit.PAct} {l : Nat} (e : emb a = .clear l) : a = .clear l := by cases a <;> cases e; rfl
theorem emb_quiet {a : Crit.PAct} (e : emb a = .quiet) : a = .quiet := by cases a <;> cases e; rfl
theorem emb_data {a : Crit.PAct} {f : IMem → Call} (e : emb a = .data f) : a = .data f := by cases a <;> cases e; rfl
theorem emb_bar {a : Crit.PAct} (e : emb a = .bar) : False := by cases a <;> cases e

theorem tally_len (p : Nat) : (tally h c tm nw K p).length = 13 * K + 2 := by
  unfold tally
  rw [List.length_append, List.length_map, counter_len]; rfl

theorem tally_lt {p i : Nat} (hi : i < 13 * K) : (tally h c tm nw K p)[i]? = ((counter h c tm nw K p)[i]?).map emb := by
  unfold tally
  rw [List.getElem?_append_left (by rw [List.length_map, counter_len]; exact hi), List.getElem?_map]

theorem tally_bar (p : Nat) : (tally h c tm nw K p)[13 * K]? = some .bar := by
  unfold tally
  rw [List.getElem?_append_right (by rw [List.length_map, counter_len]), List.length_map, counter_len, Nat.sub_self]; rfl

theorem tally_get (p : Nat) : (tally h c tm nw K p)[13 * K + 1]? = some (.data fun _ => .get h false (eight (tm p) c)) := by
  unfold tally
  rw [List.getElem?_append_right (by rw [List.length_map, counter_len]; omega), List.length_map, counter_len, Nat.add_sub_cancel_left]; rfl

theorem tally_some {p i : Nat} {a : PAct} (ha : (tally h c tm nw K p)[i]? = some a) :
    (i < 13 * K ∧ ∃ a', (counter h c tm nw K p)[i]? = some a' ∧ emb a' = a) ∨ (i = 13 * K ∧ a = .bar) ∨
      (i = 13 * K + 1 ∧ a = .data fun _ => .get h false (eight (tm p) c)) := by
  have hl := (List.getElem?_eq_some_iff.1 ha).1
  rw [tally_len] at hl
  rcases Nat.lt_or_ge i (13 * K) with h' | h'
  · rw [tally_lt h'] at ha
    exact Or.inl ⟨h', Option.map_eq_some_iff.1 ha⟩
  · have : i = 13 * K ∨ i = 13 * K + 1 := by omega
    rcases this with rfl | rfl
    · rw [tally_bar] at ha; cases ha; exact Or.inr (Or.inl ⟨rfl, rfl⟩)
    · rw [tally_get] at ha; cases ha; exact Or.inr (Or.inr ⟨rfl, rfl⟩)

theorem tally_set {p i l : Nat} (ha : (tally h c tm nw K p)[i]? = some (.set l)) : i < 13 * K ∧ (counter h c tm nw K p)[i]? = some (.set l) := by
  rcases tally_some ha with ⟨h1, a, h2, h3⟩ | ⟨_, h1⟩ | ⟨_, h1⟩
  · exact ⟨h1, emb_set h3 ▸ h2⟩
  · cases h1
  · cases h1

theorem tally_clear {p i l : Nat} (ha : (tally h c tm nw K p)[i]? = some (.clear l)) : i < 13 * K ∧ (counter h c tm nw K p)[i]? = some (.clear l) := by
  rcases tally_some ha with ⟨h1, a, h2, h3⟩ | ⟨_, h1⟩ | ⟨_, h1⟩
  · exact ⟨h1, emb_clear h3 ▸ h2⟩
  · cases h1
  · cases h1

theorem tally_data {p i : Nat} {f : IMem → Call} (ha : (tally h c tm nw K p)[i]? = some (.data f)) :
    (i < 13 * K ∧ (counter h c tm nw K p)[i]? = some (.data f)) ∨ (i = 13 * K + 1 ∧ f = fun _ => .get h false (eight (tm p) c)) := by
  rcases tally_some ha with ⟨h1, a, h2, h3⟩ | ⟨_, h1⟩ | ⟨h0, h1⟩
  · exact Or.inl ⟨h1, emb_data h3 ▸ h2⟩
  · cases h1
  · cases h1; exact Or.inr ⟨h0, rfl⟩

theorem tally_isbar {p i : Nat} (ha : (tally h c tm nw K p)[i]? = some .bar) : i = 13 * K := by
  rcases tally_some ha with ⟨h1, a, h2, h3⟩ | ⟨h1, _⟩ | ⟨_, h1⟩
  · exact (emb_bar h3).elim
  · exact h1
  · cases h1

theorem tally_holds {p i l : Nat} (hi : i ≤ 13 * K) : Holds (tally h c tm nw K p) i l ↔ Crit.Holds (counter h c tm nw K p) i l := by
  constructor
  · rintro ⟨j, h1, h2, h3⟩
    refine ⟨j, h1, (tally_set h2).2, fun k h4 h5 h6 => h3 k h4 h5 ?_⟩
    rw [tally_lt (by omega), h6]; rfl
  · rintro ⟨j, h1, h2, h3⟩
    refine ⟨j, h1, ?_, fun k h4 h5 h6 => h3 k h4 h5 (tally_clear h6).2⟩
    rw [tally_lt (by omega), h2]; rfl

theorem tally_later {p i l : Nat} (hi : 13 * K ≤ i) (hh : Holds (tally h c tm nw K p) i l) : Crit.Holds (counter h c tm nw K p) (13 * K) l := by
  obtain ⟨j, h1, h2, h3⟩ := hh
  refine (tally_holds (Nat.le_refl _)).1 ⟨j, (tally_set h2).1, h2, fun k h4 h5 => h3 k h4 (by omega)⟩

theorem tally_none {p i l : Nat} (hi : 13 * K ≤ i) : ¬ Holds (tally h c tm nw K p) i l := by
  intro hh
  have := (counter_holds (Nat.le_refl _)).1 (tally_later hi hh)
  omega

theorem tally_dirty {p i : Nat} {b : Nat × Int} (hd : Dirty (tally h c tm nw K) p i b) :
    i < 13 * K ∧ Crit.Dirty (counter h c tm nw K) p i b := by
  obtain ⟨j, hj, ⟨f, m, ha, hl, hw⟩, hq⟩ := hd
  rcases tally_data ha with ⟨h1, h2⟩ | ⟨h1, rfl⟩
  · have key : ∀ i', j < i' → i' ≤ i → i' ≤ 13 * K → Crit.Dirty (counter h c tm nw K) p i' b := by
      intro i' h3 h4 h5
      refine ⟨j, h3, ⟨f, m, h2, hl, hw⟩, fun k h6 h7 h8 => hq k h6 (by omega) ?_⟩
      rw [tally_lt (by omega), h8]; rfl
    rcases Nat.lt_or_ge i (13 * K) with hi | hi
    · exact ⟨hi, key i hj (Nat.le_refl _) (by omega)⟩
    · have := (counter_dirty (key (13 * K) (by omega) hi (Nat.le_refl _))).1
      omega
  · cases hl

theorem tally_pinned {p i : Nat} {b : Nat × Int} : ¬ Pinned (tally h c tm nw K) p i b := by
  rintro ⟨j, hj, ⟨f, m, ha, hl, hw⟩, _⟩
  rcases tally_data ha with ⟨h1, h2⟩ | ⟨h1, rfl⟩
  · exact counter_pinned (K := K) (p := p) (i := j + 1) (b := b) ⟨j, by omega, ⟨f, m, h2, hl, hw⟩, fun k h3 h4 => by omega⟩
  · cases hl

theorem tally_epoch {p i : Nat} (hi : i ≤ 13 * K) : epoch (tally h c tm nw K p) i = 0 := by
  induction i with
  | zero => rfl
  | succ i ih =>
    rw [epoch_other (fun hb => by have := tally_isbar hb; omega)]
    exact ih (by omega)

theorem tally_epoch1 (p : Nat) : epoch (tally h c tm nw K p) (13 * K + 1) = 1 := by
  rw [epoch_bar (tally_bar p), tally_epoch (Nat.le_refl _)]

theorem tally_canW {p i : Nat} (hi : i ≤ 13 * K) {b : Nat × Int} (hw : Crit.CanW (counter h c tm nw K) (counterOwn T.lk.n h c tm nw) p i b) :
    CanW (tally h c tm nw K) (tallyOwn T.lk.n h c tm nw) p i b := by
  unfold CanW tallyOwn
  rw [tally_epoch hi, if_pos rfl]
  rcases hw with ⟨l, h1, h2⟩ | h1
  · exact Or.inl ⟨l, h1, (tally_holds hi).2 h2⟩
  · exact Or.inr h1

theorem tally_canR {p i : Nat} (hi : i ≤ 13 * K) {b : Nat × Int} (hr : Crit.CanR (counter h c tm nw K) (counterOwn T.lk.n h c tm nw) p i b) :
    CanR (tally h c tm nw K) (tallyOwn T.lk.n h c tm nw) p i b := by
  rcases hr with hw | h1
  · exact Or.inl (tally_canW hi hw)
  · refine Or.inr ?_
    unfold tallyOwn
    rw [tally_epoch hi, if_pos rfl]; exact h1

theorem tally_proper (sp : Spot T h c tm nw) : Proper T (tally h c tm nw K) := by
  have hP := counter_proper sp K
  refine ⟨?_, ?_, ?_⟩
  · intro p hp i l ha
    obtain ⟨h1, h2⟩ := tally_set ha
    obtain ⟨h3, h4⟩ := hP.order p hp i l h2
    exact ⟨h3, fun hh => absurd (h4 l ((tally_holds (by omega)).1 hh)) (Nat.lt_irrefl _)⟩
  · intro p hp i l ha
    obtain ⟨h1, h2⟩ := tally_clear ha
    exact (tally_holds (by omega)).2 (hP.clears p hp i l h2)
  · intro p hp f hf m t ht x hx
    obtain ⟨i, hi⟩ := List.getElem?_of_mem hf
    rcases tally_data hi with ⟨h1, h2⟩ | ⟨h1, rfl⟩
    · exact hP.respects p hp f (List.mem_of_getElem? h2) m t ht x hx
    · rintro ⟨h2, y, hy, h3⟩
      obtain ⟨k, hk, rfl⟩ := eight_mem hy
      dsimp only at h2 h3
      subst h2
      exact sp.tl t ht k hk x hx h3.symm

theorem tally_drf (sp : Spot T h c tm nw) :
    Drf T (tally h c tm nw K) (tallyOwn T.lk.n h c tm nw) (fun b => counterOwn T.lk.n h c tm nw b ≠ none) (tallyLooks tm K) := by
  have hD := counter_drf sp K
  refine ⟨?_, ?_, ?_, ?_, ?_, ?_, ?_, ?_, ?_⟩
  · intro p hp i f ha m m' hm
    rcases tally_data ha with ⟨h1, h2⟩ | ⟨h1, rfl⟩
    · exact hD.dep p hp i f h2 m m' fun a h3 => hm a ⟨h1, h3⟩
    · rfl
  · rintro p hp i f ha a ⟨h0, hl⟩
    rcases tally_data ha with ⟨h1, h2⟩ | ⟨h1, _⟩
    · obtain ⟨h3, h4⟩ := hD.look p hp i f h2 a hl
      exact ⟨tally_canR (by omega) h3, fun hd => h4 (tally_dirty hd).2⟩
    · omega
  · intro p hp i f ha m b hr
    rcases tally_data ha with ⟨h1, h2⟩ | ⟨h1, rfl⟩
    · obtain ⟨h3, h4, h5⟩ := hD.reads p hp i f h2 m b hr
      exact ⟨h3, tally_canR (by omega) h4, fun hd => h5 (tally_dirty hd).2⟩
    · obtain ⟨h2, y, hy, h3⟩ := hr
      obtain ⟨k, hk, rfl⟩ := eight_mem hy
      dsimp only at h3
      refine ⟨by rw [h2]; exact sp.home, Or.inr ?_, fun hd => by have := (tally_dirty hd).1; omega⟩
      unfold tallyOwn
      rw [h1, tally_epoch1, if_neg (by decide), if_pos ⟨by rw [h2]; exact sp.home, h2, by omega, by omega⟩]
  · intro p hp i f ha m b hw
    rcases tally_data ha with ⟨h1, h2⟩ | ⟨h1, rfl⟩
    · obtain ⟨h3, h4, _, h6⟩ := hD.writes p hp i f h2 m b hw
      exact ⟨tally_canW (by omega) h3, fun hd => h4 (tally_dirty hd).2, tally_pinned, h6⟩
    · obtain ⟨h2, y, hy, h3⟩ := hw
      obtain ⟨k, hk, rfl⟩ := eight_mem hy
      obtain ⟨bt, ba⟩ := b
      dsimp only at h2 h3
      subst h2
      refine ⟨Or.inr ?_, fun hd => by have := (tally_dirty hd).1; omega, tally_pinned, ?_⟩
      · unfold tallyOwn
        rw [h1, tally_epoch1, if_neg (by decide), if_neg]
        · exact counter_own_tm sp hp (by omega) (by omega)
        · rintro ⟨_, e, h4, h5⟩
          dsimp only at e h4 h5
          subst e
          exact sp.ctm (ba - c).toNat (by omega) k hk (by omega)
      · rintro ⟨g1, z, hz, g2⟩
        obtain ⟨k', hk', rfl⟩ := eight_mem hz
        dsimp only at g1 g2
        subst g1
        exact sp.ctm k' hk' k hk (by omega)
  · intro p hp i f ha m
    rcases tally_data ha with ⟨h1, h2⟩ | ⟨h1, rfl⟩
    · exact hD.sole p hp i f h2 m
    · intro x hx
      obtain ⟨k, hk, rfl⟩ := eight_mem hx
      exact eight_inj
  · intro p hp i l ha b ho
    obtain ⟨h1, h2⟩ := tally_clear ha
    have ho' : counterOwn T.lk.n h c tm nw b = some (.lock l) := by
      unfold tallyOwn at ho
      rwa [tally_epoch (by omega), if_pos rfl] at ho
    exact ⟨fun hd => (hD.clears p hp i l h2 b ho').1 (tally_dirty hd).2, tally_pinned⟩
  · intro p hp i ha b
    have := tally_isbar ha
    exact ⟨fun hd => by have := (tally_dirty hd).1; omega, tally_pinned⟩
  · intro e b ho hno
    apply ho
    unfold tallyOwn
    split
    · exact hno
    · split
      · rename_i h1
        obtain ⟨h1, h2, h3, h4⟩ := h1
        obtain ⟨bt, ba⟩ := b
        dsimp only at h2 h3 h4
        subst h2
        exact absurd (hno.symm.trans (counter_own_ctr (tm := tm) (nw := nw) sp.home h3 h4)) (fun h => by cases h)
      · exact hno
  · exact hD.locks

theorem tally_clean (p i : Nat) (b : Nat × Int) (hi : 13 * K ≤ i) : ¬ Dirty (tally h c tm nw K) p i b := fun hd => by
  have := (tally_dirty hd).1
  omega

theorem tally_balanced (n : Nat) : Balanced n (tally h c tm nw K) := by
  have he : ∀ p, epoch (tally h c tm nw K p) (tally h c tm nw K p).length = 1 := by
    intro p
    rw [tally_len, epoch_other (by rw [tally_get]; exact fun h => by cases h), tally_epoch1]
  refine ⟨fun p _ q _ => by rw [he, he], fun p _ i ha l => ?_, fun p _ l => ?_⟩
  · rw [tally_isbar ha]
    exact tally_none (Nat.le_refl _)
  · rw [tally_len]
    exact tally_none (by omega)

end

open Verif.Sobj Verif.Rma Verif.Lock Verif.Api Verif.Flow
open Verif.Heap (heapSize)
open Verif.Bsp (NAct)

/-- the program on a block of the symmetric heap, with the routines of the API -/
theorem tally_accepts {T : Sys} {k Z : Nat} {B : Nat → Nat} {s : Dl.St} {x : Nat × Nat} (J : Job T.vis k Z B) (hx : x ∈ s.live)
    (hin : 960 + x.1 + x.2 ≤ heapSize k Z) (hx2 : 24 ≤ x.2) {h K : Nat} (hh : h < T.lk.n) :
    Accepts T (tally h (adr B h x 0 : Nat) (fun p => (adr B p x 8 : Nat)) (fun p => (adr B p x 16 : Nat)) K) := by
  intro p hp f hf m g hr hsp hfr
  obtain ⟨i, hi⟩ := List.getElem?_of_mem hf
  rcases tally_data hi with ⟨h1, h2⟩ | ⟨h1, rfl⟩
  · exact C109_accepted (s := s) J hx hin hx2 hh p hp f (List.mem_of_getElem? h2) m g hr hsp hfr
  · have hp' : p < T.vis.npes := by rw [← T.hn]; exact hp
    have hh' : h < T.vis.npes := by rw [← T.hn]; exact hh
    obtain ⟨e, g', hd⟩ := Bsp.C106_accepted J (block_get_ok hx hin hx2 hp' hh') hr hfr
    exact ⟨e, g', (C109_named (s := s) J hx hin hx2 hp' hh').1 hd⟩

/-- The hypotheses of the theorems of C111 are met: two PEs increment a counter a thousand times each behind a lock, pass a barrier and get the counter.
There is an execution to the end, and its end is that of a complete sequential execution, for the counter and all local variables. -/
example : ∃ l y s, PRun jT (tally 1 (adr exB 1 (0, 40) 0 : Nat) (fun p => (adr exB p (0, 40) 8 : Nat)) (fun p => (adr exB p (0, 40) 16 : Nat)) 1000)
      ⟨⟨Vis.ginit jM, fun _ _ => .idle⟩, fun _ => 0⟩ l y ∧
    SRun 2 (tally 1 (adr exB 1 (0, 40) 0 : Nat) (fun p => (adr exB p (0, 40) 8 : Nat)) (fun p => (adr exB p (0, 40) 16 : Nat)) 1000) ⟨jM, fun _ => 0⟩ s ∧
    (∀ p < 2, y.pos p = 13002 ∧ s.pos p = 13002) ∧
    ∀ p < 2, ∀ b < 24, y.x.g.mem p (adr exB p (0, 40) b : Nat) = s.mem p (adr exB p (0, 40) b : Nat) ∨ (p = 0 ∧ b < 8) := by
  obtain ⟨st, _, hlive⟩ := ex_made
  have hx : ((0, 40) : Nat × Nat) ∈ st.live := by rw [hlive]; decide
  have hin : 960 + 0 + 40 ≤ heapSize 12 4096 := by decide
  have sp := block_spot (T := jT) (x := (0, 40)) (h := 1) ex_job hin (by decide) (by decide) (by decide) jLk_apart
  have hM : jT.lk.Init (X.words ⟨Vis.ginit jM, fun _ _ => .idle⟩) := ⟨fun _ _ => rfl, fun _ _ _ _ => rfl⟩
  obtain ⟨l, y, r, he, hf⟩ := C111_exists_partial (T := jT) jLk_wf jLk_uniform (tally_proper (K := 1000) sp)
    (tally_accepts (T := jT) (h := 1) ex_job hx hin (by decide) (by decide)) (tally_balanced _) jM hM
  obtain ⟨s, h1, h2, h3⟩ := C111_end_partial (T := jT) jLk_wf jLk_uniform (tally_proper sp) (tally_drf sp) ⟨⟨jM, rfl⟩, hM⟩ rfl r he hf
  refine ⟨l, y, s, r, h1, fun p hp => ⟨(he p hp).trans (tally_len ..), (h2 p hp).trans (tally_len ..)⟩, fun p hp b hb => ?_⟩
  by_cases hpb : p = 0 ∧ b < 8
  · exact Or.inr hpb
  · left
    refine (h3 (p, (adr exB p (0, 40) b : Nat)) hp ?_ fun q _ => tally_clean q _ _ (by rw [tally_len]; omega)).1
    intro hno
    rcases Nat.lt_or_ge b 8 with h8 | h8
    · have : p = 1 := by omega
      subst this
      rw [counter_own_ctr (T := jT) (h := 1) hp (by unfold adr; omega) (by unfold adr; omega)] at hno
      cases hno
    · rcases Nat.lt_or_ge b 16 with h16 | h16
      · rw [counter_own_tm sp hp (by unfold adr; omega) (by unfold adr; omega)] at hno
        cases hno
      · rw [counter_own_nw sp hp (by unfold adr; omega) (by unfold adr; omega)] at hno
        cases hno

end Verif.Crit.Mix
