import Verif.Dl.Place
/-!
# `mspace_malloc`: what it takes, and when it takes nothing
-/
namespace Verif.Dl
open Heap

/-- the free chunks after `nb` bytes of the free chunk at `p`, of size `s`, were taken -/
def carveF (F : Nat → Option Nat) (p s nb : Nat) : Nat → Option Nat :=
  if s - nb < minChunk then Function.update F p none else Function.update (Function.update F p none) (p + nb) (some (s - nb))

/-- no free chunk starts inside a free chunk -/
def Apart (F : Nat → Option Nat) : Prop := ∀ p s, F p = some s → ∀ q, p < q → q < p + s → F q = none

variable {F : Nat → Option Nat} {b : Bins}

theorem need_small {req : Nat} (h : req ≤ 232) : need req ≤ 240 := by unfold need; split <;> omega
theorem need_large {req : Nat} (h : ¬req ≤ 232) : 256 ≤ need req := by unfold need; split <;> omega
theorem need_lt {req : Nat} (h : req < maxRequest) : need req < 2 ^ 64 := by unfold need; unfold maxRequest at h; split <;> omega

/-- what can be said about one request -/
def Spec (F : Nat → Option Nat) (top : Option Nat) (req : Nat) (b : Bins) (x : Choice × Bins) : Prop :=
  (∃ p s, x.1 = .chunk p ∧ F p = some s ∧ need req ≤ s ∧ req < maxRequest ∧ BInv (carveF F p s (need req)) x.2 ∧
    (232 < req → (∀ p s, F p = some s → s < 2 ^ 40) → ∀ q c, F q = some c → need req ≤ c → s ≤ c)) ∨
  (((x.1 = .top ∧ req < maxRequest ∧ ∃ t, top = some t ∧ need req < t) ∨ (x.1 = .outside false ∧ ∀ t, top = some t → req < maxRequest → t ≤ need req)) ∧ x.2 = b ∧
    (req < maxRequest → (232 < req → ∀ p s, F p = some s → s < 2 ^ 40) → ∀ q c, F q = some c → c < need req))

theorem dvsize_lt (i : BInv F b) {n : Nat} (hn : 0 < n) (h64 : ∀ p s, F p = some s → s < n) : b.dvsize < n := by
  cases hd : b.dv with
  | none => rw [i.nodv hd]; exact hn
  | some d => exact h64 d _ (i.dv d hd)

theorem rest_spec (i : BInv F b) (ha : Apart F) {top : Option Nat} {req : Nat} (hreq : req < maxRequest)
    (hbest : (232 < req → ∀ p s, F p = some s → s < 2 ^ 40) → ∀ q c, F q = some c → need req ≤ c → need req ≤ b.dvsize ∧ (232 < req → b.dvsize ≤ c)) :
    Spec F top req b (rest b top (need req)) := by
  have h32 := need_ge req
  have h16 := need_dvd req
  unfold rest
  by_cases hdv : need req ≤ b.dvsize
  · rw [if_pos hdv]
    left
    cases hd : b.dv with
    | none => rw [i.nodv hd] at hdv; omega
    | some p =>
      have hF := i.dv p hd
      have hsz := i.size p _ hF
      simp only
      refine ⟨p, b.dvsize, by split <;> rfl, hF, hdv, hreq, ?_, fun hr h40 q c hq hc => (hbest (fun _ => h40) q c hq hc).2 hr⟩
      unfold carveF minChunk
      by_cases hm : 32 ≤ b.dvsize - need req
      · rw [if_pos hm, if_neg (by omega)]
        exact i.moveDv hd (.inr (ha p _ hF _ (by omega) (by omega))) (by omega) hm
      · rw [if_neg hm, if_pos (by omega)]
        exact i.dropDv hd
  · rw [if_neg hdv]
    right
    have hno : (232 < req → ∀ p s, F p = some s → s < 2 ^ 40) → ∀ q c, F q = some c → c < need req := by
      intro h40 q c hq
      by_contra hc
      exact hdv (hbest h40 q c hq (by omega)).1
    cases top with
    | none => exact ⟨.inr ⟨rfl, fun t h => by cases h⟩, rfl, fun _ => hno⟩
    | some t =>
      simp only
      split
      · rename_i h
        exact ⟨.inl ⟨rfl, hreq, t, rfl, h⟩, rfl, fun _ => hno⟩
      · rename_i h
        refine ⟨.inr ⟨rfl, fun t' h' _ => ?_⟩, rfl, fun _ => hno⟩
        injection h' with h'
        omega

theorem splitDv_spec (i : BInv F b) {p s nb : Nat} (h : F p = none) (hp : F (p + nb) = none) (hsm : b.dvsize < 256) (h16 : 16 ∣ s) (hn : 16 ∣ nb) (hle : nb ≤ s) :
    BInv (carveF F p s nb) (splitDv b p s nb) := by
  have hF : Function.update F p none = F := by rw [← h]; exact Function.update_eq_self p F
  unfold carveF splitDv
  rw [hF]
  split
  · exact i
  · rename_i hm
    unfold minChunk at hm
    exact i.replaceDv (fun _ => by simp [isSmall]; omega) hp (by omega) (by omega)

theorem splitBin_spec (i : BInv F b) {p s nb : Nat} (h : F p = none) (hp : F (p + nb) = none) (h16 : 16 ∣ s) (hn : 16 ∣ nb) (hle : nb ≤ s) :
    BInv (carveF F p s nb) (splitBin b p s nb) := by
  have hF : Function.update F p none = F := by rw [← h]; exact Function.update_eq_self p F
  unfold carveF splitBin
  rw [hF]
  split
  · exact i
  · rename_i hm
    unfold minChunk at hm
    exact i.insert hp (by omega) (by omega)

theorem carveF_update {p s nb : Nat} : carveF (Function.update F p none) p s nb = carveF F p s nb := by
  unfold carveF; simp

theorem three_get {k : Nat} (hk : k < 32) : (3 : BitVec 32).getLsbD k = decide (k < 2) := by
  have : ∀ k < 32, (3 : BitVec 32).getLsbD k = decide (k < 2) := by decide
  exact this k hk

theorem place_spec (i : BInv F b) (ha : Apart F) (h64 : ∀ p s, F p = some s → s < 2 ^ 64) (top : Option Nat) (req : Nat) :
    Spec F top req b (place b top req) := by
  have h32 := need_ge req
  have h16 := need_dvd req
  unfold place
  simp only
  by_cases hsm : req ≤ 232
  · rw [if_pos hsm]
    have h240 := need_small hsm
    have hreq : req < maxRequest := by unfold maxRequest; omega
    have hidx : need req / 8 ≤ 30 := by omega
    have h8 : 8 * (need req / 8) = need req := by omega
    have hget : ∀ k, (b.smallmap >>> (need req / 8)).getLsbD k = b.smallmap.getLsbD (need req / 8 + k) := fun k => by
      rw [BitVec.getLsbD_ushiftRight]
    generalize hnb : need req = nb at *
    generalize hbits : b.smallmap >>> (nb / 8) = bits at *
    -- a chunk at the front of a bin
    have hfront : ∀ j p tl, b.small j = p :: tl → F p = some (8 * j) ∧ j < 32 ∧ b.dv ≠ some p := fun j p tl h =>
      (i.small_mem j p).1 (by rw [h]; simp)
    have hunl : ∀ j p tl, b.small j = p :: tl → BInv (Function.update F p none) (b.unlinkSmall p (8 * j)) := by
      intro j p tl h
      obtain ⟨f1, f2, f3⟩ := hfront j p tl h
      exact i.unlinkSmall f1 (by simp [isSmall, f2]) f3
    by_cases h3 : bits &&& 3 ≠ 0
    · rw [if_pos h3]
      obtain ⟨k, hk, hb⟩ := ne_zero_iff.1 h3
      rw [BitVec.getLsbD_and, three_get hk] at hb
      simp only [Bool.and_eq_true, decide_eq_true_eq] at hb
      have hj : ∃ j, (if bits.getLsbD 0 then nb / 8 else nb / 8 + 1) = j ∧ b.small j ≠ [] ∧ nb ≤ 8 * j ∧ 8 * j ≤ nb + 8 := by
        by_cases h0 : bits.getLsbD 0 = true
        · rw [if_pos h0]
          rw [hget] at h0
          exact ⟨nb / 8, rfl, (i.smallmap _ (by omega)).1 h0, by omega, by omega⟩
        · rw [if_neg h0]
          have hk1 : k = 1 := by
            by_contra hc
            have : k = 0 := by omega
            rw [this] at hb
            exact h0 hb.1
          have hb1 := hb.1
          rw [hk1, hget] at hb1
          exact ⟨nb / 8 + 1, rfl, (i.smallmap _ (by omega)).1 hb1, by omega, by omega⟩
      obtain ⟨j, hj, hne, hl1, hl2⟩ := hj
      rw [hj]
      cases hs : b.small j with
      | nil => exact absurd hs hne
      | cons p tl =>
        obtain ⟨f1, f2, f3⟩ := hfront j p tl hs
        left
        refine ⟨p, 8 * j, rfl, f1, by omega, hreq, ?_, fun h => by omega⟩
        unfold carveF minChunk
        rw [if_pos (by omega)]
        exact hunl j p tl hs
    · rw [if_neg h3]
      have h3 : bits &&& 3 = 0 := by simpa using h3
      have hlow : ∀ k < 2, bits.getLsbD k = false := by
        intro k hk
        have := eq_zero_iff.1 h3 k (by omega)
        rw [BitVec.getLsbD_and, three_get (by omega)] at this
        simpa [hk] using this
      by_cases hdv : b.dvsize < nb
      · rw [if_pos hdv]
        by_cases hbz : bits ≠ 0
        · rw [if_pos hbz]
          obtain ⟨k, hk, hb⟩ := ne_zero_iff.1 hbz
          have hk2 : 2 ≤ k := by
            by_contra hc
            rw [hlow k (by omega)] at hb; cases hb
          have hkb : nb / 8 + k < 32 := by
            rw [hget] at hb
            exact BitVec.lt_of_getLsbD hb
          have hlb : ∀ j < 32, ((bits <<< (nb / 8)) &&& leftBits (idx2bit (nb / 8))).getLsbD j = (b.smallmap.getLsbD j && decide (nb / 8 < j)) := by
            intro j hj
            rw [BitVec.getLsbD_and, leftBits_get hj, BitVec.getLsbD_shiftLeft, hget]
            by_cases hlt : nb / 8 < j
            · have e : nb / 8 + (j - nb / 8) = j := by omega
              rw [e]
              simp [hj, hlt]; omega
            · simp [hlt]
          have hne : (bits <<< (nb / 8)) &&& leftBits (idx2bit (nb / 8)) ≠ 0 := by
            refine ne_zero_iff.2 ⟨nb / 8 + k, hkb, ?_⟩
            rw [hlb _ hkb, ← hget, hb]
            simp; omega
          obtain ⟨c1, c2, c3⟩ := bit2idx_least hne
          generalize bit2idx (leastBit ((bits <<< (nb / 8)) &&& leftBits (idx2bit (nb / 8)))) = j at *
          rw [hlb j c1] at c2
          simp only [Bool.and_eq_true, decide_eq_true_eq] at c2
          have hnn := (i.smallmap j c1).1 c2.1
          cases hs : b.small j with
          | nil => exact absurd hs hnn
          | cons p tl =>
            obtain ⟨f1, f2, f3⟩ := hfront j p tl hs
            have hu := hunl j p tl hs
            left
            refine ⟨p, 8 * j, rfl, f1, by omega, hreq, ?_, fun h => by omega⟩
            rw [hnb, ← carveF_update]
            have := (i.size p _ f1).1
            refine splitDv_spec hu (by simp) ?_ (by show b.dvsize < 256; omega) this h16 (by omega)
            rw [Function.update_of_ne (by omega)]
            by_cases hq : nb = 8 * j
            · omega
            · exact ha p _ f1 _ (by omega) (by omega)
        · rw [if_neg hbz]
          have hbz : bits = 0 := by simpa using hbz
          by_cases htm : b.treemap ≠ 0
          · rw [if_pos htm]
            obtain ⟨p, s, e, hin, hle⟩ := tsmall_ok i h64 (nb := nb) (by omega) htm
            rw [e]
            simp only
            have hu := i.unlinkLarge hin.1 hin.2.1 hin.2.2
            have hlg := large_ge hin.2.1
            left
            refine ⟨p, s, rfl, hin.1, by omega, hreq, ?_, fun h => by omega⟩
            rw [hnb, ← carveF_update]
            have := (i.size p _ hin.1).1
            refine splitDv_spec hu (by simp) ?_ (by show b.dvsize < 256; omega) this h16 (by omega)
            rw [Function.update_of_ne (by omega)]
            exact ha p _ hin.1 _ (by omega) (by omega)
          · rw [if_neg htm]
            have htm : b.treemap = 0 := by simpa using htm
            rw [← hnb]
            refine rest_spec i ha hreq (fun _ q c hq hc => ?_)
            exfalso
            have hdvq : b.dv ≠ some q := by
              intro h
              have := i.dv q h
              rw [this] at hq
              injection hq with hq
              omega
            cases hss : isSmall c with
            | true =>
              have hlt : c / 8 < 32 := by simpa [isSmall] using hss
              have hc8 := (i.size q c hq).1
              have hm : q ∈ b.small (c / 8) := (i.small_mem _ _).2 ⟨by rw [show 8 * (c / 8) = c by omega]; exact hq, hlt, hdvq⟩
              have hb := (i.smallmap _ hlt).2 (fun h => by rw [h] at hm; cases hm)
              have := eq_zero_iff.1 hbz (c / 8 - nb / 8) (by omega)
              rw [hget, show nb / 8 + (c / 8 - nb / 8) = c / 8 by omega, hb] at this
              cases this
            | false =>
              have hm := i.mem ⟨hq, hss, hdvq⟩
              have hb := (i.treemap _ (treeIndex_lt c)).2 (fun h => by rw [h] at hm; exact hm)
              rw [eq_zero_iff.1 htm _ (treeIndex_lt c)] at hb
              cases hb
      · rw [if_neg hdv, ← hnb]
        exact rest_spec i ha hreq (fun _ q c hq hc => ⟨by omega, fun h => by omega⟩)
  · rw [if_neg hsm]
    have h256 := need_large hsm
    by_cases hmax : maxRequest ≤ req
    · rw [if_pos hmax]
      exact .inr ⟨.inr ⟨rfl, fun t _ h => by omega⟩, rfl, fun h => by omega⟩
    · rw [if_neg hmax]
      have hreq : req < maxRequest := by omega
      have hn := need_lt hreq
      by_cases htm : b.treemap ≠ 0
      · rw [if_pos htm]
        cases ht : tlarge b (need req) with
        | some w =>
          obtain ⟨p, s⟩ := w
          obtain ⟨hin, hle, hbdv⟩ := tlarge_ok i h64 (by omega) hn ht
          have hu := i.unlinkLarge hin.1 hin.2.1 hin.2.2
          left
          refine ⟨p, s, rfl, hin.1, hle, hreq, ?_, fun _ h40 q c hq hc => ?_⟩
          · simp only
            rw [← carveF_update]
            have := (i.size p _ hin.1).1
            by_cases hq : need req = s
            · unfold carveF splitBin minChunk
              rw [if_pos (by omega), if_pos (by omega)]
              simpa using hu
            · refine splitBin_spec hu (by simp) ?_ this h16 hle
              rw [Function.update_of_ne (by omega)]
              exact ha p _ hin.1 _ (by omega) (by omega)
          · by_cases hd : b.dv = some q
            · have := i.dv q hd
              rw [this] at hq
              injection hq with hq
              have := hbdv (by omega) (dvsize_lt i (by omega) h64)
              omega
            · have hss : isSmall c = false := by simp [isSmall]; omega
              rcases tlarge_best i h40 h256 ⟨hq, hss, hd⟩ hc with ⟨p', s', e, hs⟩ | ⟨e, -⟩
              · rw [ht] at e
                injection e with e
                injection e with e1 e2
                omega
              · rw [ht] at e; cases e
        | none =>
          refine rest_spec i ha hreq (fun h40 q c hq hc => ?_)
          by_cases hd : b.dv = some q
          · have := i.dv q hd
            rw [this] at hq
            injection hq with hq
            omega
          · have hss : isSmall c = false := by simp [isSmall]; omega
            rcases tlarge_best i (h40 (by omega)) h256 ⟨hq, hss, hd⟩ hc with ⟨p', s', e, hs⟩ | ⟨-, h1, h2⟩
            · rw [ht] at e; cases e
            · exact ⟨h1, fun _ => h2⟩
      · rw [if_neg htm]
        have htm : b.treemap = 0 := by simpa using htm
        refine rest_spec i ha hreq (fun h40 q c hq hc => ?_)
        by_cases hd : b.dv = some q
        · have := i.dv q hd
          rw [this] at hq
          injection hq with hq
          omega
        · have hss : isSmall c = false := by simp [isSmall]; omega
          have hm := i.mem ⟨hq, hss, hd⟩
          have hb := (i.treemap _ (treeIndex_lt c)).2 (fun h => by rw [h] at hm; exact hm)
          rw [eq_zero_iff.1 htm _ (treeIndex_lt c)] at hb
          cases hb

end Verif.Dl
