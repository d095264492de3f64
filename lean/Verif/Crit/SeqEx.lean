import Verif.Crit.SeqProps
import Verif.Crit.CounterJob
/-!
# C110: the counter is a program without races
-/
namespace Verif.Crit
open Verif.Rma Verif.Lock

/-- the counter belongs to the lock, the local variables to their PEs -/
def counterOwn (n h : Nat) (c : Int) (tm nw : Nat → Int) (b : Nat × Int) : Option Own :=
  if b.1 < n then
    if b.1 = h ∧ c ≤ b.2 ∧ b.2 < c + 8 then some (.lock 0)
    else if (tm b.1 ≤ b.2 ∧ b.2 < tm b.1 + 8) ∨ (nw b.1 ≤ b.2 ∧ b.2 < nw b.1 + 8) then some (.pe b.1) else none
  else none

/-- the stores depend on the value that has been got -/
def counterLooks (tm : Nat → Int) (p i : Nat) (a : Int) : Prop := 2 ≤ i % 13 ∧ i % 13 < 10 ∧ tm p ≤ a ∧ a < tm p + 8

section
variable {T : Sys} {h : Nat} {c : Int} {tm nw : Nat → Int} {K : Nat}

theorem counter_own_ctr (hh : h < T.lk.n) {a : Int} (h1 : c ≤ a) (h2 : a < c + 8) : counterOwn T.lk.n h c tm nw (h, a) = some (.lock 0) := by
  unfold counterOwn
  rw [if_pos hh, if_pos ⟨rfl, h1, h2⟩]

theorem counter_own_tm (sp : Spot T h c tm nw) {p : Nat} (hp : p < T.lk.n) {a : Int} (h1 : tm p ≤ a) (h2 : a < tm p + 8) :
    counterOwn T.lk.n h c tm nw (p, a) = some (.pe p) := by
  unfold counterOwn
  rw [if_pos hp, if_neg, if_pos (Or.inl ⟨h1, h2⟩)]
  rintro ⟨e, h3, h4⟩
  dsimp only at e h3 h4
  subst e
  exact sp.ctm (a - c).toNat (by omega) (a - tm p).toNat (by omega) (by omega)

theorem counter_own_nw (sp : Spot T h c tm nw) {p : Nat} (hp : p < T.lk.n) {a : Int} (h1 : nw p ≤ a) (h2 : a < nw p + 8) :
    counterOwn T.lk.n h c tm nw (p, a) = some (.pe p) := by
  unfold counterOwn
  rw [if_pos hp, if_neg, if_pos (Or.inr ⟨h1, h2⟩)]
  rintro ⟨e, h3, h4⟩
  dsimp only at e h3 h4
  subst e
  exact sp.cnw (a - c).toNat (by omega) (a - nw p).toNat (by omega) (by omega)

theorem counter_dirty {p i : Nat} {b : Nat × Int} (hd : Dirty (counter h c tm nw K) p i b) : i % 13 = 11 ∧ b.1 = h ∧ c ≤ b.2 ∧ b.2 < c + 8 := by
  obtain ⟨j, hj, ⟨f, m, ha, hl, hw⟩, hq⟩ := hd
  obtain ⟨hjK, e⟩ := counter_get' ha
  rcases act_data e with ⟨_, rfl⟩ | ⟨k, _, _, rfl⟩ | ⟨h0, rfl⟩
  · cases hl
  · cases hl
  · obtain ⟨h1, y, hy, h2⟩ := hw
    obtain ⟨k, hk, rfl⟩ := eight_mem hy
    dsimp only at h2
    refine ⟨?_, h1, by omega, by omega⟩
    by_cases hi : i = j + 1
    · omega
    · exfalso
      refine hq (j + 1) (by omega) (by omega) ?_
      rw [counter_get (by omega)]
      have : (j + 1) % 13 = 11 := by omega
      rw [this]
      rfl

theorem counter_pinned {p i : Nat} {b : Nat × Int} : ¬ Pinned (counter h c tm nw K) p i b := by
  rintro ⟨j, hj, ⟨f, m, ha, hl, hw⟩, _⟩
  obtain ⟨hjK, e⟩ := counter_get' ha
  rcases act_data e with ⟨_, rfl⟩ | ⟨k, _, _, rfl⟩ | ⟨h0, rfl⟩ <;> cases hl

/-- the program of C109 has no races -/
theorem counter_drf (sp : Spot T h c tm nw) (K : Nat) :
    Drf T (counter h c tm nw K) (counterOwn T.lk.n h c tm nw) (counterLooks tm) := by
  refine ⟨?_, ?_, ?_, ?_, ?_, ?_, ?_⟩
  · intro p hp i f ha m m' hm
    obtain ⟨hi, e⟩ := counter_get' ha
    rcases act_data e with ⟨_, rfl⟩ | ⟨k, hk, hik, rfl⟩ | ⟨_, rfl⟩
    · rfl
    · have hb : ∀ a, tm p ≤ a → a < tm p + 8 → m a = m' a := fun a h1 h2 => hm a ⟨by omega, by omega, h1, h2⟩
      have : word8 m (tm p) = word8 m' (tm p) := by
        unfold word8
        rw [hb _ (by omega) (by omega), hb (tm p + 1) (by omega) (by omega), hb (tm p + 2) (by omega) (by omega), hb (tm p + 3) (by omega) (by omega),
          hb (tm p + 4) (by omega) (by omega), hb (tm p + 5) (by omega) (by omega), hb (tm p + 6) (by omega) (by omega),
          hb (tm p + 7) (by omega) (by omega)]
      dsimp only
      rw [this]
    · rfl
  · rintro p hp i f ha a ⟨h1, h2, h3, h4⟩
    refine ⟨Or.inl (Or.inr (counter_own_tm sp hp h3 h4)), fun hd => ?_⟩
    have := (counter_dirty hd).1
    omega
  · intro p hp i f ha m b hr
    obtain ⟨hi, e⟩ := counter_get' ha
    rcases act_data e with ⟨h0, rfl⟩ | ⟨k, hk, hik, rfl⟩ | ⟨h0, rfl⟩
    · obtain ⟨h1, y, hy, h2⟩ := hr
      obtain ⟨k, hk, rfl⟩ := eight_mem hy
      obtain ⟨bt, ba⟩ := b
      dsimp only at h1 h2
      subst h1
      refine ⟨sp.home, Or.inl (Or.inl ⟨0, counter_own_ctr sp.home (by omega) (by omega), ?_⟩), fun hd => ?_⟩
      · exact (counter_holds (by omega)).2 ⟨rfl, by omega⟩
      · have := (counter_dirty hd).1; omega
    · cases hr
    · obtain ⟨h1, y, hy, h2⟩ := hr
      obtain ⟨k, hk, rfl⟩ := eight_mem hy
      obtain ⟨bt, ba⟩ := b
      dsimp only at h1 h2
      subst h1
      refine ⟨hp, Or.inl (Or.inr (counter_own_nw sp hp (by omega) (by omega))), fun hd => ?_⟩
      have := (counter_dirty hd).1; omega
  · intro p hp i f ha m b hw
    obtain ⟨hi, e⟩ := counter_get' ha
    rcases act_data e with ⟨h0, rfl⟩ | ⟨k, hk, hik, rfl⟩ | ⟨h0, rfl⟩
    · obtain ⟨h1, y, hy, h2⟩ := hw
      obtain ⟨k, hk, rfl⟩ := eight_mem hy
      obtain ⟨bt, ba⟩ := b
      dsimp only at h1 h2
      subst h1
      refine ⟨Or.inr (counter_own_tm sp hp (by omega) (by omega)), fun hd => ?_, counter_pinned, ?_⟩
      · have := (counter_dirty hd).1; omega
      · rintro ⟨g1, z, hz, g2⟩
        obtain ⟨k', hk', rfl⟩ := eight_mem hz
        dsimp only at g1 g2
        subst g1
        exact sp.ctm k' hk' k hk (by omega)
    · have hw : b = (p, nw p + (k : Nat)) := hw
      subst hw
      refine ⟨Or.inr (counter_own_nw sp hp (by omega) (by omega)), fun hd => ?_, counter_pinned, fun h => h⟩
      have := (counter_dirty hd).1; omega
    · obtain ⟨h1, y, hy, h2⟩ := hw
      obtain ⟨k, hk, rfl⟩ := eight_mem hy
      obtain ⟨bt, ba⟩ := b
      dsimp only at h1 h2
      subst h1
      refine ⟨Or.inl ⟨0, counter_own_ctr sp.home (by omega) (by omega), ?_⟩, fun hd => ?_, counter_pinned, ?_⟩
      · exact (counter_holds (by omega)).2 ⟨rfl, by omega⟩
      · have := (counter_dirty hd).1; omega
      · rintro ⟨g1, z, hz, g2⟩
        obtain ⟨k', hk', rfl⟩ := eight_mem hz
        dsimp only at g1 g2
        subst g1
        exact sp.cnw k hk k' hk' (by omega)
  · intro p hp i f ha m
    obtain ⟨hi, e⟩ := counter_get' ha
    have key : ∀ a b : Int, ∀ x ∈ eight a b, ∀ y ∈ eight a b, y.1 = x.1 → y = x := by
      intro a b x hx
      obtain ⟨k, hk, rfl⟩ := eight_mem hx
      exact eight_inj
    rcases act_data e with ⟨h0, rfl⟩ | ⟨k, hk, hik, rfl⟩ | ⟨h0, rfl⟩
    · exact key _ _
    · exact trivial
    · exact key _ _
  · intro p hp i l ha b _
    obtain ⟨hi, e⟩ := counter_get' ha
    have h0 := (act_clear (by omega) e).1
    refine ⟨fun hd => ?_, counter_pinned⟩
    have := (counter_dirty hd).1; omega
  · intro b ho z hz e
    obtain ⟨bt, ba⟩ := b
    dsimp only at hz e
    unfold counterOwn at ho
    dsimp only at ho
    split at ho
    · rename_i hb
      split at ho
      · rename_i h1
        obtain ⟨rfl, h2, h3⟩ := h1
        exact sp.cl (ba - c).toNat (by omega) z hz (by omega)
      · split at ho
        · rename_i h1
          rcases h1 with h1 | h1
          · exact sp.tl bt hb (ba - tm bt).toNat (by omega) z hz (by omega)
          · exact sp.nl bt hb (ba - nw bt).toNat (by omega) z hz (by omega)
        · exact ho rfl
    · exact ho rfl

/-- nothing is pending at its end -/
theorem counter_clean (p : Nat) (b : Nat × Int) : ¬ Dirty (counter h c tm nw K) p (counter h c tm nw K p).length b := by
  intro hd
  have := (counter_dirty hd).1
  rw [counter_len] at this
  omega

end

open Verif.Sobj Verif.Rma Verif.Lock Verif.Api Verif.Flow
open Verif.Heap (heapSize)
open Verif.Bsp (NAct)

/-- The hypotheses of the theorems of C110 are met by the job of C109 (two PEs, a thousand increments each): there is a fair execution, and its end
is that of a complete sequential execution, for the counter and all local variables. -/
example : ∃ R : LInf jT (blockCounter exB (0, 40) 1 1000), R.vis.Fair ∧
    ∃ i s, SRun 2 (blockCounter exB (0, 40) 1 1000) ⟨jM, fun _ => 0⟩ s ∧ (∀ p < 2, s.pos p = 13000) ∧
      ∀ j, i ≤ j → ∀ p < 2, ∀ b < 24, (R.vis.st j).mem p (adr exB p (0, 40) b : Nat) = s.mem p (adr exB p (0, 40) b : Nat) ∨ (p = 0 ∧ b < 8) := by
  obtain ⟨st, _, hlive⟩ := ex_made
  have hx : ((0, 40) : Nat × Nat) ∈ st.live := by rw [hlive]; decide
  have hin : 960 + 0 + 40 ≤ heapSize 12 4096 := by decide
  have sp := block_spot (T := jT) (x := (0, 40)) (h := 1) ex_job hin (by decide) (by decide) (by decide) jLk_apart
  obtain ⟨_, h2⟩ := C109_job_partial (T := jT) (h := 1) (K := 1000) ex_job jLk_wf jLk_uniform hx hin (by decide) (by decide) (by decide) jLk_apart
  obtain ⟨R, F, hM⟩ := h2 jM ⟨fun _ _ => rfl, fun _ _ _ _ => rfl⟩
  obtain ⟨i, s, h3, h4, h5⟩ := C110_result_partial R jLk_wf jLk_uniform (counter_proper sp 1000) (counter_drf sp 1000) F
  refine ⟨R, F, i, s, ?_, ?_, ?_⟩
  · rw [← hM]; exact h3
  · intro p hp
    rw [h4 p hp]
    exact (counter_len ..).trans rfl
  · intro j hj p hp b hb
    by_cases hpb : p = 0 ∧ b < 8
    · exact Or.inr hpb
    · left
      refine (h5 j hj).2 (p, (adr exB p (0, 40) b : Nat)) hp ?_ fun q _ => counter_clean q _
      intro hno
      rcases Nat.lt_or_ge b 8 with h8 | h8
      · have : p = 1 := by omega
        subst this
        rw [counter_own_ctr (T := jT) (h := 1) hp (by unfold adr; omega) (by unfold adr; omega)] at hno
        cases hno
      · rcases Nat.lt_or_ge b 16 with h16 | h16
        · rw [counter_own_tm sp hp (by unfold adr; omega) (by unfold adr; omega)] at hno
          cases hno
        · rw [counter_own_nw sp hp (by unfold adr; omega) (by unfold adr; omega)] at hno
          cases hno

/-- those of `C110_section`: PE 0 takes the lock while PE 1 has a local variable to read -/
example : ∃ s', SStep 2 (blockCounter exB (0, 40) 1 1000) ⟨jM, fun _ => 0⟩ s' ∧ s'.pos 0 = 1 ∧ s'.pos 1 = 0 ∧
    CanR (blockCounter exB (0, 40) 1 1000) (counterOwn 2 1 (adr exB 1 (0, 40) 0 : Nat) (fun p => (adr exB p (0, 40) 8 : Nat)) (fun p => (adr exB p (0, 40) 16 : Nat)))
      1 0 (1, (adr exB 1 (0, 40) 8 : Nat)) := by
  have sp := block_spot (T := jT) (x := (0, 40)) (h := 1) ex_job (by decide) (by decide) (by decide) (by decide) jLk_apart
  refine ⟨_, SStep.set 0 0 (by decide) ?_ ?_, rfl, rfl, Or.inl (Or.inr ?_)⟩
  · exact (counter_get (by decide)).trans rfl
  · rintro q _ ⟨j, hj, _⟩
    exact absurd hj (Nat.not_lt_zero j)
  · exact counter_own_tm (T := jT) sp (p := 1) (by decide) (Int.le_refl _) (by omega)

end Verif.Crit
