import Verif.Mix.Tally
import Verif.Bsp.Ex
/-!
# C114: the total is put into the memory of the next PE, and a barrier completes the puts

The program of C111 and C113, and then `shmem_long_put_nbi` (rma_impl.h L107-158) of what has been got to the next PE, and `shmem_barrier_all`
(coll_impl.h L12-32). Nobody calls `shmem_quiet`.
-/
namespace Verif.Crit.Mix
open Verif.Rma Verif.Lock

/-- the program of C111, a non-blocking put of the counter to the next PE (rma_impl.h L107-158), and a barrier (coll_impl.h L12-32) -/
def announce (n h : Nat) (c : Int) (tm nw ec : Nat → Int) (K : Nat) : Prog := fun p =>
  tally h c tm nw K p ++ [.data fun _ => .put ((p + 1) % n) true (eight (ec ((p + 1) % n)) (tm p)), .bar]

/-- the byte is one of those that the PE before puts -/
def InEcho (n : Nat) (ec : Nat → Int) (b : Nat × Int) : Prop := b.1 < n ∧ ec b.1 ≤ b.2 ∧ b.2 < ec b.1 + 8

/-- as in C111, and what is put belongs to the PE before -/
noncomputable def annOwn (n h : Nat) (c : Int) (tm nw ec : Nat → Int) (e : Nat) (b : Nat × Int) : Option Own :=
  open Classical in
  if InEcho n ec b then some (.pe ((b.1 + (n - 1)) % n)) else tallyOwn n h c tm nw e b

/-- the put is what the barrier completes -/
def annCov (K _p i : Nat) : Prop := i = 13 * K + 2

/-- the bytes that are put into are different from the other variables, and in no lock -/
structure Echo (T : Sys) (h : Nat) (c : Int) (tm nw ec : Nat → Int) : Prop where
  eh : ∀ b < 8, ∀ b' < 8, ec h + (b : Nat) ≠ c + (b' : Nat)
  et : ∀ p < T.lk.n, ∀ b < 8, ∀ b' < 8, ec p + (b : Nat) ≠ tm p + (b' : Nat)
  en : ∀ p < T.lk.n, ∀ b < 8, ∀ b' < 8, ec p + (b : Nat) ≠ nw p + (b' : Nat)
  el : ∀ p < T.lk.n, ∀ b < 8, ∀ x, T.lk.InLock p x → x.toInt ≠ ec p + (b : Nat)

section
variable {T : Sys} {n h : Nat} {c : Int} {tm nw ec : Nat → Int} {K v0 : Nat}

theorem ann_len (p : Nat) : (announce n h c tm nw ec K p).length = 13 * K + 4 := by
  unfold announce
  rw [List.length_append, tally_len]; rfl

theorem ann_lt {p i : Nat} (hi : i < 13 * K + 2) : (announce n h c tm nw ec K p)[i]? = (tally h c tm nw K p)[i]? := by
  unfold announce
  rw [List.getElem?_append_left (by rw [tally_len]; exact hi)]

theorem ann_put (p : Nat) : (announce n h c tm nw ec K p)[13 * K + 2]? =
    some (.data fun _ => .put ((p + 1) % n) true (eight (ec ((p + 1) % n)) (tm p))) := by
  unfold announce
  rw [List.getElem?_append_right (by rw [tally_len]), tally_len, Nat.sub_self]; rfl

theorem ann_bar (p : Nat) : (announce n h c tm nw ec K p)[13 * K + 3]? = some .bar := by
  unfold announce
  rw [List.getElem?_append_right (by rw [tally_len]; omega), tally_len, show 13 * K + 3 - (13 * K + 2) = 1 by omega]; rfl

theorem ann_some {p i : Nat} {a : PAct} (ha : (announce n h c tm nw ec K p)[i]? = some a) :
    (i < 13 * K + 2 ∧ (tally h c tm nw K p)[i]? = some a) ∨
      (i = 13 * K + 2 ∧ a = .data fun _ => .put ((p + 1) % n) true (eight (ec ((p + 1) % n)) (tm p))) ∨ (i = 13 * K + 3 ∧ a = .bar) := by
  have hl := (List.getElem?_eq_some_iff.1 ha).1
  rw [ann_len] at hl
  rcases Nat.lt_or_ge i (13 * K + 2) with h' | h'
  · rw [ann_lt h'] at ha
    exact Or.inl ⟨h', ha⟩
  · have : i = 13 * K + 2 ∨ i = 13 * K + 3 := by omega
    rcases this with rfl | rfl
    · rw [ann_put] at ha; cases ha; exact Or.inr (Or.inl ⟨rfl, rfl⟩)
    · rw [ann_bar] at ha; cases ha; exact Or.inr (Or.inr ⟨rfl, rfl⟩)

theorem ann_set {p i l : Nat} (ha : (announce n h c tm nw ec K p)[i]? = some (.set l)) :
    i < 13 * K + 2 ∧ (tally h c tm nw K p)[i]? = some (.set l) := by
  rcases ann_some ha with h1 | ⟨_, h1⟩ | ⟨_, h1⟩
  · exact h1
  · cases h1
  · cases h1

theorem ann_clear {p i l : Nat} (ha : (announce n h c tm nw ec K p)[i]? = some (.clear l)) :
    i < 13 * K + 2 ∧ (tally h c tm nw K p)[i]? = some (.clear l) := by
  rcases ann_some ha with h1 | ⟨_, h1⟩ | ⟨_, h1⟩
  · exact h1
  · cases h1
  · cases h1

theorem ann_quiet {p i : Nat} (ha : (announce n h c tm nw ec K p)[i]? = some .quiet) :
    i < 13 * K + 2 ∧ (tally h c tm nw K p)[i]? = some .quiet := by
  rcases ann_some ha with h1 | ⟨_, h1⟩ | ⟨_, h1⟩
  · exact h1
  · cases h1
  · cases h1

theorem ann_data {p i : Nat} {f : IMem → Call} (ha : (announce n h c tm nw ec K p)[i]? = some (.data f)) :
    (i < 13 * K + 2 ∧ (tally h c tm nw K p)[i]? = some (.data f)) ∨
      (i = 13 * K + 2 ∧ f = fun _ => .put ((p + 1) % n) true (eight (ec ((p + 1) % n)) (tm p))) := by
  rcases ann_some ha with h1 | ⟨h0, h1⟩ | ⟨_, h1⟩
  · exact Or.inl h1
  · cases h1; exact Or.inr ⟨h0, rfl⟩
  · cases h1

theorem ann_isbar {p i : Nat} (ha : (announce n h c tm nw ec K p)[i]? = some .bar) : i = 13 * K ∨ i = 13 * K + 3 := by
  rcases ann_some ha with ⟨_, h1⟩ | ⟨_, h1⟩ | ⟨h1, _⟩
  · exact Or.inl (tally_isbar h1)
  · cases h1
  · exact Or.inr h1

theorem ann_holds {p i l : Nat} : Holds (announce n h c tm nw ec K p) i l ↔ Holds (tally h c tm nw K p) i l := by
  constructor
  · rintro ⟨j, h1, h2, h3⟩
    refine ⟨j, h1, (ann_set h2).2, fun k h4 h5 h6 => h3 k h4 h5 ?_⟩
    rw [ann_lt (by have := (tally_clear h6).1; omega), h6]
  · rintro ⟨j, h1, h2, h3⟩
    refine ⟨j, h1, ?_, fun k h4 h5 h6 => h3 k h4 h5 (ann_clear h6).2⟩
    rw [ann_lt (by have := (tally_set h2).1; omega), h2]

theorem ann_epoch {p i : Nat} (hi : i ≤ 13 * K + 2) : epoch (announce n h c tm nw ec K p) i = epoch (tally h c tm nw K p) i := by
  induction i with
  | zero => rfl
  | succ i ih =>
    by_cases hb : (tally h c tm nw K p)[i]? = some .bar
    · rw [epoch_bar hb, epoch_bar (by rw [ann_lt (by omega), hb]), ih (by omega)]
    · rw [epoch_other hb, epoch_other (by rw [ann_lt (by omega)]; exact hb), ih (by omega)]

theorem ann_pendW {p i j : Nat} {b : Nat × Int} (hd : PendW (announce n h c tm nw ec K) (annCov K) p i b j) :
    (i < 13 * K ∧ Dirty (tally h c tm nw K) p i b) ∨ (i = 13 * K + 3 ∧ j = 13 * K + 2) := by
  obtain ⟨hj, ⟨f, m, ha, hl, hw⟩, hq, hb⟩ := hd
  rcases ann_data ha with ⟨h1, h2⟩ | ⟨h1, rfl⟩
  · left
    have key : ∀ i', j < i' → i' ≤ i → i' ≤ 13 * K + 2 → Dirty (tally h c tm nw K) p i' b := by
      intro i' h3 h4 h5
      refine ⟨j, h3, ⟨f, m, h2, hl, hw⟩, fun k h6 h7 h8 => hq k h6 (by omega) ?_⟩
      rw [ann_lt (by omega), h8]
    rcases Nat.lt_or_ge i (13 * K + 2) with hi | hi
    · have := key i hj (Nat.le_refl _) (by omega)
      exact ⟨(tally_dirty this).1, this⟩
    · have := (tally_dirty (key (13 * K + 2) h1 hi (Nat.le_refl _))).1
      omega
  · right
    refine ⟨?_, h1⟩
    by_contra hne
    exact hb h1 (13 * K + 3) (by omega) (by omega) (ann_bar p)

theorem ann_pendR {p i j : Nat} {b : Nat × Int} (hd : PendR (announce n h c tm nw ec K) (annCov K) p i b j) : i = 13 * K + 3 ∧ j = 13 * K + 2 := by
  obtain ⟨hj, ⟨f, m, ha, hl, hw⟩, hq, hb⟩ := hd
  rcases ann_data ha with ⟨h1, h2⟩ | ⟨h1, rfl⟩
  · exact absurd (⟨j, by omega, ⟨f, m, h2, hl, hw⟩, fun k h3 h4 => by omega⟩ : Pinned (tally h c tm nw K) p (j + 1) b) tally_pinned
  · refine ⟨?_, h1⟩
    by_contra hne
    exact hb h1 (13 * K + 3) (by omega) (by omega) (ann_bar p)

theorem ann_dirty {p i : Nat} {b : Nat × Int} (hi : i ≤ 13 * K + 2) (hd : DirtyC (announce n h c tm nw ec K) (annCov K) p i b) :
    i < 13 * K ∧ Dirty (tally h c tm nw K) p i b := by
  obtain ⟨j, hd⟩ := hd
  rcases ann_pendW hd with h1 | ⟨h1, _⟩
  · exact h1
  · omega

theorem ann_pinned {p i : Nat} {b : Nat × Int} (hi : i ≤ 13 * K + 2) : ¬ PinnedC (announce n h c tm nw ec K) (annCov K) p i b := by
  rintro ⟨j, hd⟩
  have := (ann_pendR hd).1
  omega

theorem ann_clean (p : Nat) (b : Nat × Int) : ¬ DirtyC (announce n h c tm nw ec K) (annCov K) p (announce n h c tm nw ec K p).length b := by
  rintro ⟨j, hd⟩
  rw [ann_len] at hd
  rcases ann_pendW hd with ⟨h1, _⟩ | ⟨h1, _⟩ <;> omega

theorem echo_counter (sp : Spot T h c tm nw) (ho : Echo T h c tm nw ec) {b : Nat × Int} (hb : InEcho T.lk.n ec b) : counterOwn T.lk.n h c tm nw b = none := by
  obtain ⟨q, a⟩ := b
  obtain ⟨h1, h2, h3⟩ := hb
  dsimp only at h1 h2 h3
  have _ := sp.home
  unfold counterOwn
  rw [if_pos h1, if_neg, if_neg]
  · rintro (⟨g1, g2⟩ | ⟨g1, g2⟩)
    · exact ho.et q h1 (a - ec q).toNat (by omega) (a - tm q).toNat (by dsimp only at g1 g2; omega) (by dsimp only at g1 g2; omega)
    · exact ho.en q h1 (a - ec q).toNat (by omega) (a - nw q).toNat (by dsimp only at g1 g2; omega) (by dsimp only at g1 g2; omega)
  · rintro ⟨e, g1, g2⟩
    dsimp only at e g1 g2
    subst e
    exact ho.eh (a - ec q).toNat (by omega) (a - c).toNat (by omega) (by omega)

theorem tallyOwn_used (sp : Spot T h c tm nw) {e : Nat} {b : Nat × Int} (hn : counterOwn T.lk.n h c tm nw b = none) : tallyOwn T.lk.n h c tm nw e b = none := by
  by_contra hne
  exact (tally_drf (K := 0) sp).owned e b hne hn

theorem ann_own (sp : Spot T h c tm nw) (ho : Echo T h c tm nw ec) {e : Nat} {b : Nat × Int} {o : Own} (hb : tallyOwn T.lk.n h c tm nw e b = some o) :
    annOwn T.lk.n h c tm nw ec e b = some o := by
  unfold annOwn
  rw [if_neg]
  · exact hb
  · intro hi
    rw [tallyOwn_used sp (echo_counter sp ho hi)] at hb
    cases hb

theorem tally_own_tm (sp : Spot T h c tm nw) {p e k : Nat} (hp : p < T.lk.n) (hk : k < 8) :
    tallyOwn T.lk.n h c tm nw e (p, tm p + (k : Nat)) = some (.pe p) := by
  unfold tallyOwn
  split
  · exact counter_own_tm sp hp (by omega) (by omega)
  · rw [if_neg]
    · exact counter_own_tm sp hp (by omega) (by omega)
    · rintro ⟨_, e, h4, h5⟩
      dsimp only at e h4 h5
      subst e
      exact sp.ctm (tm p + (k : Nat) - c).toNat (by omega) k hk (by omega)

theorem ann_canW (sp : Spot T h c tm nw) (ho : Echo T h c tm nw ec) {p i : Nat} (hi : i ≤ 13 * K + 2) {b : Nat × Int}
    (hw : CanW (tally h c tm nw K) (tallyOwn T.lk.n h c tm nw) p i b) :
    CanW (announce T.lk.n h c tm nw ec K) (annOwn T.lk.n h c tm nw ec) p i b := by
  unfold CanW
  rw [ann_epoch hi]
  rcases hw with ⟨l, h1, h2⟩ | h1
  · exact Or.inl ⟨l, ann_own sp ho h1, ann_holds.2 h2⟩
  · exact Or.inr (ann_own sp ho h1)

theorem ann_canR (sp : Spot T h c tm nw) (ho : Echo T h c tm nw ec) {p i : Nat} (hi : i ≤ 13 * K + 2) {b : Nat × Int}
    (hw : CanR (tally h c tm nw K) (tallyOwn T.lk.n h c tm nw) p i b) :
    CanR (announce T.lk.n h c tm nw ec K) (annOwn T.lk.n h c tm nw ec) p i b := by
  rcases hw with h1 | h1
  · exact Or.inl (ann_canW sp ho hi h1)
  · refine Or.inr ?_
    rw [ann_epoch hi]; exact ann_own sp ho h1

theorem next_lt {n p : Nat} (hp : p < n) : (p + 1) % n < n := Nat.mod_lt _ (by omega)

theorem ann_proper (sp : Spot T h c tm nw) (ho : Echo T h c tm nw ec) : Proper T (announce T.lk.n h c tm nw ec K) := by
  have hP := tally_proper (K := K) sp
  refine ⟨?_, ?_, ?_⟩
  · intro p hp i l ha
    obtain ⟨h3, h4⟩ := hP.sets p hp i l (ann_set ha).2
    exact ⟨h3, fun hh => h4 (ann_holds.1 hh)⟩
  · intro p hp i l ha
    exact ann_holds.2 (hP.clears p hp i l (ann_clear ha).2)
  · intro p hp f hf m t ht x hx
    obtain ⟨i, hi⟩ := List.getElem?_of_mem hf
    rcases ann_data hi with ⟨h1, h2⟩ | ⟨h1, rfl⟩
    · exact hP.respects p hp f (List.mem_of_getElem? h2) m t ht x hx
    · rintro ⟨h2, y, hy, h3⟩
      obtain ⟨k, hk, rfl⟩ := eight_mem hy
      dsimp only at h2 h3
      subst h2
      exact ho.el _ ht k hk x hx h3.symm

theorem ann_drf (sp : Spot T h c tm nw) (ho : Echo T h c tm nw ec) :
    DrfC T (announce T.lk.n h c tm nw ec K) (annCov K) (annOwn T.lk.n h c tm nw ec)
      (fun b => counterOwn T.lk.n h c tm nw b ≠ none ∨ InEcho T.lk.n ec b) (tallyLooks tm K) := by
  have hD := tally_drf (K := K) sp
  refine ⟨?_, ?_, ?_, ?_, ?_, ?_, ?_, ?_, ?_⟩
  · intro p hp i f ha m m' hm
    rcases ann_data ha with ⟨h1, h2⟩ | ⟨h1, rfl⟩
    · exact hD.dep p hp i f h2 m m' hm
    · rfl
  · intro p hp i f ha a hl
    rcases ann_data ha with ⟨h1, h2⟩ | ⟨h1, _⟩
    · obtain ⟨h3, h4⟩ := hD.look p hp i f h2 a hl
      exact ⟨ann_canR sp ho (by omega) h3, fun hd => h4 (ann_dirty (by omega) hd).2⟩
    · have := hl.1; omega
  · intro p hp i f ha m b hr
    rcases ann_data ha with ⟨h1, h2⟩ | ⟨h1, rfl⟩
    · obtain ⟨h3, h4, h5⟩ := hD.reads p hp i f h2 m b hr
      exact ⟨h3, ann_canR sp ho (by omega) h4, fun hd => h5 (ann_dirty (by omega) hd).2⟩
    · obtain ⟨h2, y, hy, h3⟩ := hr
      obtain ⟨k, hk, rfl⟩ := eight_mem hy
      obtain ⟨bt, ba⟩ := b
      dsimp only at h2 h3
      subst h2
      subst h3
      refine ⟨hp, ann_canR sp ho (by omega) (Or.inl (Or.inr (tally_own_tm sp hp hk))), fun hd => ?_⟩
      have := (ann_dirty (by omega) hd).1
      omega
  · intro p hp i f ha m b hw
    rcases ann_data ha with ⟨h1, h2⟩ | ⟨h1, rfl⟩
    · obtain ⟨h3, h4, _, h6⟩ := hD.writes p hp i f h2 m b hw
      exact ⟨ann_canW sp ho (by omega) h3, fun hd => h4 (ann_dirty (by omega) hd).2, ann_pinned (by omega), h6⟩
    · obtain ⟨h2, y, hy, h3⟩ := hw
      obtain ⟨k, hk, rfl⟩ := eight_mem hy
      obtain ⟨bt, ba⟩ := b
      dsimp only at h2 h3
      subst h2
      subst h3
      refine ⟨Or.inr ?_, fun hd => by have := (ann_dirty (by omega) hd).1; omega, ann_pinned (by omega), ?_⟩
      · unfold annOwn
        have hin : InEcho T.lk.n ec ((p + 1) % T.lk.n, ec ((p + 1) % T.lk.n) + (k : Nat)) := ⟨next_lt hp, by dsimp only; omega, by dsimp only; omega⟩
        rw [if_pos hin]
        exact congrArg (fun q => some (Own.pe q)) (Bsp.ring_prev hp)
      · rintro ⟨g1, z, hz, g2⟩
        obtain ⟨k', hk', rfl⟩ := eight_mem hz
        dsimp only at g1 g2
        rw [g1] at g2
        exact ho.et p hp k hk k' hk' g2.symm
  · intro p hp i f ha m
    rcases ann_data ha with ⟨h1, h2⟩ | ⟨h1, rfl⟩
    · exact hD.sole p hp i f h2 m
    · intro x hx
      obtain ⟨k, hk, rfl⟩ := eight_mem hx
      exact eight_inj
  · intro p hp i l ha b hb
    obtain ⟨h1, h2⟩ := ann_clear ha
    rw [ann_epoch (by omega)] at hb
    have hb' : tallyOwn T.lk.n h c tm nw (epoch (tally h c tm nw K p) i) b = some (.lock l) := by
      unfold annOwn at hb
      split at hb
      · cases hb
      · exact hb
    exact ⟨fun hd => (hD.clears p hp i l h2 b hb').1 (ann_dirty (by omega) hd).2, ann_pinned (by omega)⟩
  · intro p hp i ha b j hd
    have hi := ann_isbar ha
    rcases hd with hd | hd
    · rcases ann_pendW hd with ⟨h1, _⟩ | ⟨_, h1⟩
      · omega
      · exact h1
    · exact (ann_pendR hd).2
  · intro e b hb
    unfold annOwn at hb
    split at hb
    · rename_i hin; exact Or.inr hin
    · exact Or.inl (hD.owned e b hb)
  · rintro ⟨q, a⟩ (hb | ⟨h1, h2, h3⟩) z hz
    · exact hD.locks (q, a) hb z hz
    · dsimp only at h1 h2 h3 hz ⊢
      have := ho.el q h1 (a - ec q).toNat (by omega) z hz
      intro e
      exact this (by omega)

theorem ann_balanced : Balanced T.lk.n (announce T.lk.n h c tm nw ec K) := by
  have he : ∀ p, epoch (announce T.lk.n h c tm nw ec K p) (announce T.lk.n h c tm nw ec K p).length = 2 := by
    intro p
    rw [ann_len, epoch_bar (ann_bar p), epoch_other (by rw [ann_put]; exact fun h => by cases h), ann_epoch (Nat.le_refl _),
      epoch_other (by rw [tally_get]; exact fun h => by cases h), tally_epoch1]
  refine ⟨fun p _ q _ => by rw [he, he], fun p _ i ha l hh => ?_, fun p _ l hh => ?_⟩
  · exact tally_none (by have := ann_isbar ha; omega) (ann_holds.1 hh)
  · rw [ann_len] at hh
    exact tally_none (by omega) (ann_holds.1 hh)

theorem ann_ascending : Ascending T.lk.n (announce T.lk.n h c tm nw ec K) := by
  intro p hp i l hs k hk
  exact tally_ascending T.lk.n p hp i l (ann_set hs).2 k (ann_holds.1 hk)

/-! ## Proof: sequential executions -/

/-- the position in the program of C111 -/
def clip (K : Nat) (pos : Nat → Nat) (q : Nat) : Nat := min (pos q) (13 * K + 2)

/-- What is true of a sequential execution of the program. -/
structure AInv (n h : Nat) (c : Int) (tm nw ec : Nat → Int) (K v0 : Nat) (s : SX) : Prop where
  base : SInv n h c tm nw K v0 ⟨s.mem, clip K s.pos⟩
  sync : ∀ q < n, 13 * K < s.pos q → ∀ q' < n, 13 * K < s.pos q'
  out : ∀ q < n, 13 * K + 2 < s.pos q → ∀ b < 8, s.mem ((q + 1) % n) (ec ((q + 1) % n) + (b : Nat)) = byteOf (v0 + n * K) b

/-- the invariant of C113 is about the variables of C111 only -/
theorem sinv_congr {m m' : Nat → IMem} {pos : Nat → Nat} (inv : SInv n h c tm nw K v0 ⟨m, pos⟩) (hc : ∀ b < 8, m' h (c + (b : Nat)) = m h (c + (b : Nat)))
    (ht : ∀ q < n, ∀ b < 8, m' q (tm q + (b : Nat)) = m q (tm q + (b : Nat))) (hw : ∀ q < n, ∀ b < 8, m' q (nw q + (b : Nat)) = m q (nw q + (b : Nat))) :
    SInv n h c tm nw K v0 ⟨m', pos⟩ := by
  refine ⟨inv.excl, inv.late, fun b hb => ?_, fun q hq b hb h1 => ?_, fun q hq b hb h1 h2 h3 => ?_⟩
  · exact (hc b hb).trans (inv.ctr b hb)
  · exact (ht q hq b hb).trans (inv.tmp q hq b hb h1)
  · exact (hw q hq b hb).trans (inv.new q hq b hb h1 h2 h3)

theorem clip_upd {pos : Nat → Nat} {p : Nat} (hp : pos p < 13 * K + 2) :
    clip K (Function.update pos p (pos p + 1)) = Function.update (clip K pos) p (clip K pos p + 1) := by
  funext q
  by_cases hq : q = p
  · subst hq
    rw [Function.update_self]
    unfold clip
    rw [Function.update_self]
    omega
  · rw [Function.update_of_ne hq]
    unfold clip
    rw [Function.update_of_ne hq]

theorem clip_same {pos : Nat → Nat} {p : Nat} (hp : pos p = 13 * K + 2) : clip K (Function.update pos p (pos p + 1)) = clip K pos := by
  funext q
  unfold clip
  by_cases hq : q = p
  · subst hq
    rw [Function.update_self]
    omega
  · rw [Function.update_of_ne hq]

theorem clip_lt {pos : Nat → Nat} {p : Nat} (hp : pos p < 13 * K + 2) : clip K pos p = pos p := by
  unfold clip; omega

theorem clip_holds {pos : Nat → Nat} {q l : Nat} (hh : Holds (tally h c tm nw K q) (clip K pos q) l) : Holds (announce n h c tm nw ec K q) (pos q) l := by
  rcases Nat.lt_or_ge (pos q) (13 * K + 2) with h1 | h1
  · rw [clip_lt h1] at hh
    exact ann_holds.2 hh
  · exact absurd hh (tally_none (by unfold clip; omega))

/-- a step of the program of C111 -/
theorem ainv_old (sp : Spot T h c tm nw) {m m' : Nat → IMem} {pos : Nat → Nat} (inv : AInv T.lk.n h c tm nw ec K v0 ⟨m, pos⟩) {p : Nat}
    (hp : p < T.lk.n) (hlt : pos p < 13 * K + 2) (hnb : pos p ≠ 13 * K)
    (st : SStep T.lk.n (tally h c tm nw K) ⟨m, clip K pos⟩ ⟨m', Function.update (clip K pos) p (clip K pos p + 1)⟩)
    (hm : ∀ q < T.lk.n, 13 * K + 2 < pos q → ∀ b < 8, m' ((q + 1) % T.lk.n) (ec ((q + 1) % T.lk.n) + (b : Nat)) =
      m ((q + 1) % T.lk.n) (ec ((q + 1) % T.lk.n) + (b : Nat))) :
    AInv T.lk.n h c tm nw ec K v0 ⟨m', Function.update pos p (pos p + 1)⟩ := by
  have up : ∀ q, (q = p ∧ Function.update pos p (pos p + 1) q = pos p + 1) ∨ (q ≠ p ∧ Function.update pos p (pos p + 1) q = pos q) := by
    intro q
    by_cases hq : q = p
    · subst hq; exact Or.inl ⟨rfl, Function.update_self ..⟩
    · exact Or.inr ⟨hq, Function.update_of_ne hq _ _⟩
  refine ⟨?_, ?_, ?_⟩
  · show SInv T.lk.n h c tm nw K v0 ⟨m', clip K (Function.update pos p (pos p + 1))⟩
    rw [clip_upd hlt]
    exact sinv_step sp inv.base st
  · intro q hq h1 q' hq'
    have hs : 13 * K < pos q := by
      dsimp only at h1
      rcases up q with ⟨e1, e2⟩ | ⟨e1, e2⟩ <;> rw [e2] at h1
      · rw [e1]; omega
      · exact h1
    have h2 : 13 * K < pos q' := inv.sync q hq hs q' hq'
    dsimp only
    rcases up q' with ⟨e1, e2⟩ | ⟨e1, e2⟩ <;> rw [e2]
    · rw [e1] at h2; omega
    · exact h2
  · intro q hq h1 b hb
    dsimp only at h1 ⊢
    rcases up q with ⟨e1, e2⟩ | ⟨e1, e2⟩ <;> rw [e2] at h1
    · omega
    · rw [hm q hq h1 b hb]
      exact inv.out q hq h1 b hb

theorem made_all {pos : Nat → Nat} (hall : ∀ q < n, 13 * K < pos q) : made (clip K pos) n = n * K := by
  rw [← made_end (pos := fun _ => 13 * K) (n := n) (K := K) fun _ _ => rfl]
  refine made_same fun q hq => ?_
  have := hall q hq
  unfold clip
  omega

/-- a PE's data action leaves the echoes alone while it is in the program of C111 -/
theorem echo_kept (sp : Spot T h c tm nw) (ho : Echo T h c tm nw ec) {p i : Nat} (hp : p < T.lk.n) {f : IMem → Call}
    (ha : (tally h c tm nw K p)[i]? = some (.data f)) {m : Nat → IMem} {q : Nat} (hq : q < T.lk.n) {b : Nat} (hb : b < 8) :
    (f (m p)).exec p m q (ec q + (b : Nat)) = m q (ec q + (b : Nat)) := by
  refine exec_frame (b := (q, ec q + (b : Nat))) fun hw => ?_
  have h1 := (tally_drf (K := K) sp).writes p hp i f ha (m p) (q, ec q + (b : Nat)) hw
  refine canW_own h1.1 (tallyOwn_used sp (echo_counter sp ho ⟨hq, ?_, ?_⟩))
  · dsimp only; omega
  · dsimp only; omega

theorem ainv_step (sp : Spot T h c tm nw) (ho : Echo T h c tm nw ec) {s t : SX} (inv : AInv T.lk.n h c tm nw ec K v0 s)
    (st : SStep T.lk.n (announce T.lk.n h c tm nw ec K) s t) : AInv T.lk.n h c tm nw ec K v0 t := by
  cases st with
  | @set m pos p l hp ha hl =>
    obtain ⟨h1, h2⟩ := ann_set ha
    refine ainv_old sp inv hp h1 (fun e => by rw [e, tally_bar] at h2; cases h2) ?_ fun _ _ _ _ _ => rfl
    refine .set p l hp (by rw [clip_lt h1]; exact h2) fun q hq hh => hl q hq (clip_holds hh)
  | @clear m pos p l hp ha =>
    obtain ⟨h1, h2⟩ := ann_clear ha
    refine ainv_old sp inv hp h1 (fun e => by rw [e, tally_bar] at h2; cases h2) ?_ fun _ _ _ _ _ => rfl
    exact .clear p l hp (by rw [clip_lt h1]; exact h2)
  | @quiet m pos p hp ha =>
    obtain ⟨h1, h2⟩ := ann_quiet ha
    refine ainv_old sp inv hp h1 (fun e => by rw [e, tally_bar] at h2; cases h2) ?_ fun _ _ _ _ _ => rfl
    exact .quiet p hp (by rw [clip_lt h1]; exact h2)
  | @data m pos p f hp ha =>
    rcases ann_data ha with ⟨h1, h2⟩ | ⟨h1, rfl⟩
    · refine ainv_old sp inv hp h1 (fun e => by rw [e, tally_bar] at h2; cases h2) ?_ fun q hq _ b hb => echo_kept sp ho hp h2 (next_lt hq) hb
      exact .data p f hp (by rw [clip_lt h1]; exact h2)
    · have hnb : ∀ q < T.lk.n, ∀ a : Int, (∀ b < 8, ec q + (b : Nat) ≠ a) →
          (Call.put ((p + 1) % T.lk.n) true (eight (ec ((p + 1) % T.lk.n)) (tm p))).exec p m q a = m q a := by
        intro q hq a hne
        refine exec_frame (b := (q, a)) ?_
        rintro ⟨g1, z, hz, g2⟩
        obtain ⟨k, hk, rfl⟩ := eight_mem hz
        dsimp only at g1 g2
        subst g1
        exact hne k hk g2
      have hall : ∀ q < T.lk.n, 13 * K < pos q := inv.sync p hp (by dsimp only; omega)
      refine ⟨?_, ?_, ?_⟩
      · show SInv T.lk.n h c tm nw K v0 ⟨_, clip K (Function.update pos p (pos p + 1))⟩
        rw [clip_same h1]
        refine sinv_congr inv.base (fun b hb => ?_) (fun q hq b hb => ?_) (fun q hq b hb => ?_)
        · exact hnb h sp.home _ fun b' hb' => ho.eh b' hb' b hb
        · exact hnb q hq _ fun b' hb' => ho.et q hq b' hb' b hb
        · exact hnb q hq _ fun b' hb' => ho.en q hq b' hb' b hb
      · intro q hq _ q' hq'
        dsimp only
        by_cases e : q' = p
        · subst e; rw [Function.update_self]; omega
        · rw [Function.update_of_ne e]; exact hall q' hq'
      · intro q hq h2 b hb
        dsimp only at h2 ⊢
        by_cases e : q = p
        · subst e
          have hpx : (Call.put ((q + 1) % T.lk.n) true (eight (ec ((q + 1) % T.lk.n)) (tm q))).exec q m ((q + 1) % T.lk.n)
              (ec ((q + 1) % T.lk.n) + (b : Nat)) = m q (tm q + (b : Nat)) := put_exec hb
          rw [hpx, ← made_all hall]
          exact inv.base.tmp q hq b hb (Or.inr (by show clip K pos q = _; unfold clip; omega))
        · rw [Function.update_of_ne e] at h2
          have hne : (q + 1) % T.lk.n ≠ (p + 1) % T.lk.n := fun e' => e (Bsp.ring_inj hq hp e')
          refine Eq.trans ?_ (inv.out q hq h2 b hb)
          exact congrFun (Function.update_of_ne hne _ _) _
  | @bar m pos ha =>
    by_cases h0 : ∀ q < T.lk.n, pos q = 13 * K
    · have e : clip K (fun q => pos q + 1) = fun q => clip K (fun q => pos q + 1) q := rfl
      have st : SStep T.lk.n (tally h c tm nw K) ⟨m, clip K pos⟩ ⟨m, fun q => clip K pos q + 1⟩ :=
        .bar fun q hq => by rw [clip_lt (by rw [h0 q hq]; omega), h0 q hq]; exact tally_bar q
      have b1 := sinv_step sp inv.base st
      refine ⟨?_, ?_, ?_⟩
      · have hsame : ∀ q < T.lk.n, clip K (fun q => pos q + 1) q = clip K pos q + 1 := by
          intro q hq
          have := h0 q hq
          unfold clip
          dsimp only
          omega
        have hmade : made (clip K (fun q => pos q + 1)) T.lk.n = made (fun q => clip K pos q + 1) T.lk.n :=
          made_same fun q hq => by rw [hsame q hq]
        refine ⟨?_, ?_, ?_, ?_, ?_⟩
        · intro q hq q' hq' g1 g2 g3 g4
          dsimp only at g1 g2 g3 g4
          rw [hsame q hq] at g1 g2
          rw [hsame q' hq'] at g3 g4
          exact b1.excl q hq q' hq' g1 g2 g3 g4
        · intro q hq g1 q' hq'
          dsimp only at g1 ⊢
          rw [hsame q hq] at g1
          rw [hsame q' hq']
          exact b1.late q hq g1 q' hq'
        · intro b hb
          dsimp only
          rw [hmade]; exact b1.ctr b hb
        · intro q hq b hb g1
          dsimp only at g1 ⊢
          rw [hsame q hq] at g1
          rw [hmade]; exact b1.tmp q hq b hb g1
        · intro q hq b hb g1 g2 g3
          dsimp only at g1 g2 g3 ⊢
          rw [hsame q hq] at g1 g2 g3
          rw [hmade]; exact b1.new q hq b hb g1 g2 g3
      · intro q hq _ q' hq'
        have := h0 q' hq'
        dsimp only; omega
      · intro q hq h2
        have := h0 q hq
        dsimp only at h2; omega
    · have h3 : ∀ q < T.lk.n, pos q = 13 * K + 3 := by
        by_contra hne
        apply h0
        intro q hq
        rcases ann_isbar (ha q hq) with h1 | h1
        · exact h1
        · exfalso
          apply hne
          intro q' hq'
          have := inv.sync q hq (by dsimp only; omega) q' hq'
          have := ann_isbar (ha q' hq')
          dsimp only at *
          omega
      refine ⟨?_, ?_, ?_⟩
      · have hsame : ∀ q < T.lk.n, clip K (fun q => pos q + 1) q = clip K pos q := by
          intro q hq
          have := h3 q hq
          unfold clip
          dsimp only
          omega
        have hmade : made (clip K (fun q => pos q + 1)) T.lk.n = made (clip K pos) T.lk.n :=
          made_same fun q hq => by rw [hsame q hq]
        have b1 := inv.base
        refine ⟨?_, ?_, ?_, ?_, ?_⟩
        · intro q hq q' hq' g1 g2 g3 g4
          dsimp only at g1 g2 g3 g4
          rw [hsame q hq] at g1 g2
          rw [hsame q' hq'] at g3 g4
          exact b1.excl q hq q' hq' g1 g2 g3 g4
        · intro q hq g1 q' hq'
          dsimp only at g1 ⊢
          rw [hsame q hq] at g1
          rw [hsame q' hq']
          exact b1.late q hq g1 q' hq'
        · intro b hb
          dsimp only
          rw [hmade]; exact b1.ctr b hb
        · intro q hq b hb g1
          dsimp only at g1 ⊢
          rw [hsame q hq] at g1
          rw [hmade]; exact b1.tmp q hq b hb g1
        · intro q hq b hb g1 g2 g3
          dsimp only at g1 g2 g3 ⊢
          rw [hsame q hq] at g1 g2 g3
          rw [hmade]; exact b1.new q hq b hb g1 g2 g3
      · intro q hq _ q' hq'
        have := h3 q' hq'
        dsimp only; omega
      · intro q hq _ b hb
        exact inv.out q hq (by dsimp only; rw [h3 q hq]; omega) b hb

theorem ainv_init (n : Nat) (m : Nat → IMem) : AInv n h c tm nw ec K (word8 (m h) c) ⟨m, fun _ => 0⟩ := by
  refine ⟨?_, ?_, ?_⟩
  · have e : clip K (fun _ => 0) = fun _ => 0 := by funext q; unfold clip; dsimp only; omega
    show SInv n h c tm nw K (word8 (m h) c) ⟨m, clip K (fun _ => 0)⟩
    rw [e]
    exact sinv_init n m
  · intro q _ h1; exact absurd h1 (Nat.not_lt_zero _)
  · intro q _ h1; exact absurd h1 (Nat.not_lt_zero _)

theorem ainv_run (sp : Spot T h c tm nw) (ho : Echo T h c tm nw ec) {s t : SX} (r : SRun T.lk.n (announce T.lk.n h c tm nw ec K) s t)
    (h0 : AInv T.lk.n h c tm nw ec K v0 s) : AInv T.lk.n h c tm nw ec K v0 t := by
  induction r with
  | nil => exact h0
  | snoc r st ih => exact ainv_step sp ho ih st

/-- **Everybody is told the total.** Each of the `n` PEs adds one to the counter of PE `h` `K` times behind the lock, passes a barrier, gets the counter,
    puts what it got into a variable of the next PE without waiting for the put, and passes a second barrier. In every fair execution in which
    that put is one that the code's barrier completes, there is an instant from which on every PE has finished, and its variable holds the first value
    of the counter plus `n * K`. -/
theorem C114_announce_partial (wf : T.lk.WF) (un : T.lk.Uniform) (sp : Spot T h c tm nw) (ho : Echo T h c tm nw ec)
    (R : MInf T (announce T.lk.n h c tm nw ec K)) (F : R.vis.Fair) (hc : R.Covers fun _ i => i = 13 * K + 2) :
    ∃ i, ∀ j, i ≤ j → ∀ p < T.lk.n, R.pos j p = 13 * K + 4 ∧
      word8 ((R.vis.st j).mem p) (ec p) = (word8 (R.vis.mem h) c + T.lk.n * K) % 2 ^ 64 := by
  obtain ⟨i, hi⟩ := C114_result_partial R wf un (ann_proper sp ho) ann_ascending ann_balanced (ann_drf sp ho)
    (fun i e he p hp hv => hc i e he p hp hv) F
  refine ⟨i, fun j hj p hp => ?_⟩
  obtain ⟨h1, s, h2, h3, h4⟩ := hi j hj
  refine ⟨(h1 p hp).trans (ann_len p), ?_⟩
  have inv := ainv_run sp ho h2 (ainv_init _ _)
  refine word8_bytes fun b hb => ?_
  have := h4 (p, ec p + (b : Nat)) hp (Or.inr ⟨hp, by dsimp only; omega, by dsimp only; omega⟩) (fun q hq => ann_clean q _)
  refine Eq.trans this ?_
  have hq : (p + (T.lk.n - 1)) % T.lk.n < T.lk.n := Nat.mod_lt _ (by omega)
  have hn : ((p + (T.lk.n - 1)) % T.lk.n + 1) % T.lk.n = p := by
    rw [Nat.mod_add_mod, show p + (T.lk.n - 1) + 1 = p + T.lk.n by omega, Nat.add_mod_right, Nat.mod_eq_of_lt hp]
  have := inv.out _ hq (by rw [h3 _ hq, ann_len]; omega) b hb
  rwa [hn] at this

end

open Verif.Sobj Verif.Rma Verif.Lock Verif.Api Verif.Flow
open Verif.Heap (heapSize)
open Verif.Bsp (NAct)

/-- arguments of `shmem_long_put_nbi(ec, tm, 1, (p + 1) % n)` by PE `p`: bytes 24 and 8 of its block `x` -/
def annArgs (B : Nat → Nat) (x : Nat × Nat) (p : Nat) : RArgs :=
  ⟨BitVec.ofNat 64 (adr B p x 24), BitVec.ofNat 64 (adr B p x 8), 0, fun _ => 0, 1, 1, 1⟩

/-- the program on a block: the counter at its start on PE `h`, then `tm`, `nw` and `ec` of each PE -/
def blockAnnounce (n : Nat) (B : Nat → Nat) (x : Nat × Nat) (h K : Nat) : Prog :=
  announce n h (adr B h x 0 : Nat) (fun p => (adr B p x 8 : Nat)) (fun p => (adr B p x 16 : Nat)) (fun p => (adr B p x 24 : Nat)) K

section
variable {T : Sys} {k Z : Nat} {B : Nat → Nat} {s : Dl.St} {x : Nat × Nat}

theorem block_ann_ok {S : Vis.Sys} (hx : x ∈ s.live) (hin : 960 + x.1 + x.2 ≤ heapSize k Z) (hx2 : 32 ≤ x.2) {p q : Nat} (hp : p < S.npes)
    (hq : q < S.npes) : (NAct.rma .putNbi (.typed ⟨.long, .long⟩) false (annArgs B x p) q).Ok S k Z B s p := by
  refine ⟨rfl, x, 24, fun gpu mode hmode => ⟨(by show _ ∈ rmaRows; decide), hp, hq, hx, hin, by omega, ?_, rfl, fun _ => rfl,
    ⟨(by show 1 < 2 ^ 31; omega), fun _ => (by show 8 * 1 < 2 ^ 31; omega)⟩⟩⟩
  intro i hi b hb
  have hi : i < 1 := hi
  have hb : b < 8 := hb
  show 0 ≤ Flow.byteOf (24 : Nat) 8 1 i b ∧ Flow.byteOf (24 : Nat) 8 1 i b < x.2
  unfold Flow.byteOf
  omega

/-- `shmem_long_put_nbi` by name is the put of the program, and a put that the barrier completes -/
theorem ann_named {S : Vis.Sys} (J : Job S k Z B) (hx : x ∈ s.live) (hin : 960 + x.1 + x.2 ≤ heapSize k Z) (hx2 : 32 ≤ x.2) {p q : Nat} (hp : p < S.npes)
    (hq : q < S.npes) {g g' : Vis.G} {e : Vis.Ev} (hd : (NAct.rma .putNbi (.typed ⟨.long, .long⟩) false (annArgs B x p) q).Does S p g e g') :
    (Call.put q true (eight (adr B q x 24 : Nat) (adr B p x 8 : Nat))).Does p e ∧ Vis.Step S g e g' ∧ EvCov S e := by
  have a8 := block_int J hin (d := 8) (by omega) hp
  have a24 := block_int J hin (d := 24) (by omega) hp
  have e0 : ((adr B p x 24 : Nat) : Int) - B p + B q = (adr B q x 24 : Nat) := by unfold adr; omega
  obtain ⟨h1, hr, h2⟩ := Bsp.named_rma J (block_ann_ok hx hin hx2 hp hq) hd
  have h2 : e = .put p q true none (BitVec.ofNat 64 (adr B p x 24))
    (pairs ((BitVec.ofNat 64 (adr B p x 24)).toInt - B p + B q) (BitVec.ofNat 64 (adr B p x 8)).toInt 1 8 1 1) (g.arr p) := h2
  have hr : Sobj.inRange (S.cf p).heap (BitVec.ofNat 64 (adr B p x 24)) = true := hr
  rw [a8, a24, e0, pairs_eight] at h2
  refine ⟨⟨_, _, _, h2⟩, h1, ?_⟩
  rw [h2]
  exact Or.inr ⟨rfl, Or.inr (Or.inl hr)⟩

/-- the library accepts the calls of the program, and the put is one that a barrier completes -/
theorem ann_accepts (J : Job T.vis k Z B) (hx : x ∈ s.live) (hin : 960 + x.1 + x.2 ≤ heapSize k Z) (hx2 : 32 ≤ x.2) {h K : Nat} (hh : h < T.lk.n) :
    AcceptsC T (blockAnnounce T.lk.n B x h K) (fun _ i => i = 13 * K + 2) := by
  intro p hp i f hf m g hr hsp hfr
  rcases ann_data hf with ⟨h1, h2⟩ | ⟨h1, rfl⟩
  · obtain ⟨e, g', h3, h4⟩ := tally_accepts (s := s) J hx hin (by omega) hh p hp f (List.mem_of_getElem? h2) m g hr hsp hfr
    exact ⟨e, g', h3, h4, fun hi => by omega⟩
  · have hp' : p < T.vis.npes := by rw [← T.hn]; exact hp
    have hq' : (p + 1) % T.lk.n < T.vis.npes := by rw [← T.hn]; exact next_lt hp
    obtain ⟨e, g', hd⟩ := Bsp.C106_accepted J (block_ann_ok hx hin hx2 hp' hq') hr hfr
    obtain ⟨h3, h4, h5⟩ := ann_named (s := s) J hx hin hx2 hp' hq' hd
    exact ⟨e, g', h3, h4, fun _ => h5⟩

theorem block_echo (hl : ∀ p < T.lk.n, ∀ b < 32, ∀ z, T.lk.InLock p z → z.toInt ≠ (adr B p x b : Nat)) {h : Nat} :
    Echo T h (adr B h x 0 : Nat) (fun p => (adr B p x 8 : Nat)) (fun p => (adr B p x 16 : Nat)) (fun p => (adr B p x 24 : Nat)) := by
  refine ⟨?_, ?_, ?_, ?_⟩
  · intro b hb b' hb'; unfold adr; omega
  · intro p _ b hb b' hb'; unfold adr; omega
  · intro p _ b hb b' hb'; unfold adr; omega
  · intro p hp b hb z hz e
    refine hl p hp (24 + b) (by omega) z hz (e.trans ?_)
    unfold adr; omega

/-- **The program on a block of the symmetric heap.** In every job whose PEs hold a block of at least 32 bytes, with a lock elsewhere: every fair
    execution in which the put is one that the code's barrier completes leaves the total in the variable of every PE; for all first contents of
    memory in which the locks are zero there are such executions (with `shmem_long_put_nbi` on the default context). -/
theorem C114_job_partial (J : Job T.vis k Z B) (wf : T.lk.WF) (un : T.lk.Uniform) (hx : x ∈ s.live) (hin : 960 + x.1 + x.2 ≤ heapSize k Z)
    (hx2 : 32 ≤ x.2) {h K : Nat} (hh : h < T.lk.n) (hm : 0 < T.lk.m)
    (hl : ∀ p < T.lk.n, ∀ b < 32, ∀ z, T.lk.InLock p z → z.toInt ≠ (adr B p x b : Nat)) :
    (∀ R : MInf T (blockAnnounce T.lk.n B x h K), R.vis.Fair → R.Covers (fun _ i => i = 13 * K + 2) →
      ∃ i, ∀ j, i ≤ j → ∀ p < T.lk.n, R.pos j p = 13 * K + 4 ∧
        word8 ((R.vis.st j).mem p) (adr B p x 24 : Nat) = (word8 (R.vis.mem h) (adr B h x 0 : Nat) + T.lk.n * K) % 2 ^ 64) ∧
    ∀ M, T.lk.Init (X.words ⟨Vis.ginit M, fun _ _ => .idle⟩) →
      ∃ R : MInf T (blockAnnounce T.lk.n B x h K), R.vis.Fair ∧ R.vis.mem = M ∧ R.Covers (fun _ i => i = 13 * K + 2) := by
  have sp := block_spot J hin (by omega) hh hm fun p hp b hb => hl p hp b (by omega)
  have ho := block_echo (T := T) (B := B) (x := x) (h := h) hl
  exact ⟨fun R F hc => C114_announce_partial wf un sp ho R F hc,
    fun M hM => C114_exists_partial wf un (ann_proper sp ho) (ann_accepts (s := s) J hx hin hx2 hh) ann_balanced M hM⟩

end

theorem jLk_apart32 : ∀ p < jT.lk.n, ∀ b < 32, ∀ z, jT.lk.InLock p z → z.toInt ≠ (adr exB p (0, 40) b : Nat) := by
  rintro p hp b hb z ⟨l, hl, i, hi, rfl⟩
  have h1 : ∀ p < 2, ∀ i < 8, (jLk.lockp 0 p + BitVec.ofNat 64 i).toInt = ((0x10000 * (p + 1) + 992 + i : Nat) : Int) := by decide +kernel
  have h2 := h1 p hp i hi
  have h3 : (jT.lk.lockp l p + BitVec.ofNat 64 i).toInt = ((0x10000 * (p + 1) + 992 + i : Nat) : Int) := h2
  rw [h3]
  unfold adr exB
  omega

/-- The hypotheses of the theorems of C114 are met: two PEs increment a counter a thousand times each behind a lock, pass a barrier, get the counter, put
it into the memory of the other PE with `shmem_long_put_nbi`, and pass a second barrier. There is a fair execution in which the barrier completes
the puts; in it both PEs get to the end of their programs, and both have been told 2000. -/
example : ∃ R : MInf jT (blockAnnounce 2 exB (0, 40) 1 1000), R.vis.Fair ∧ R.Covers (fun _ i => i = 13002) ∧
    ∃ i, ∀ j, i ≤ j → ∀ p < 2, R.pos j p = 13004 ∧ word8 ((R.vis.st j).mem p) (adr exB p (0, 40) 24 : Nat) = 2000 := by
  obtain ⟨st, _, hlive⟩ := ex_made
  have hx : ((0, 40) : Nat × Nat) ∈ st.live := by rw [hlive]; decide
  have hM : jT.lk.Init (X.words ⟨Vis.ginit jM, fun _ _ => .idle⟩) := ⟨fun _ _ => rfl, fun _ _ _ _ => rfl⟩
  obtain ⟨h1, h2⟩ := C114_job_partial (T := jT) (K := 1000) (h := 1) ex_job jLk_wf jLk_uniform hx (by decide) (by decide) (by decide) (by decide) jLk_apart32
  obtain ⟨R, F, hR, hc⟩ := h2 jM hM
  obtain ⟨i, hi⟩ := h1 R F hc
  refine ⟨R, F, hc, i, fun j hj p hp => ⟨(hi j hj p hp).1, ?_⟩⟩
  rw [(hi j hj p hp).2, hR]
  rfl

/-- The hypotheses of `C114_sequential_partial` and `C114_end_partial` are met as well: the rules of `DrfC` hold of the program, and the rules of C111 do
not (the put is pending at the second barrier). -/
example : ∃ own used looks, DrfC jT (blockAnnounce 2 exB (0, 40) 1 1000) (annCov 1000) own used looks ∧
    ∀ own' used' looks', ¬ Drf jT (blockAnnounce 2 exB (0, 40) 1 1000) own' used' looks' := by
  have hin : 960 + 0 + 40 ≤ heapSize 12 4096 := by decide
  have sp := block_spot (T := jT) (x := (0, 40)) (h := 1) ex_job hin (by decide) (by decide) (by decide) jLk_apart
  refine ⟨_, _, _, ann_drf (T := jT) (K := 1000) sp (block_echo jLk_apart32), fun own' used' looks' hD => ?_⟩
  refine (hD.bars 0 (by decide) 13003 (ann_bar (K := 1000) 0) (1, (adr exB 1 (0, 40) 24 : Nat))).1 ?_
  refine ⟨13002, by decide, ⟨_, fun _ => 0, ann_put (K := 1000) 0, trivial, rfl, _, mem_eight _ _ (i := 0) (by decide), ?_⟩, fun k h1 h2 => by omega⟩
  exact Int.add_zero _

end Verif.Crit.Mix
