import Verif.Bsp.Fair
import Verif.Bsp.Ex
/-!
# C105: hypotheses met
-/
namespace Verif.Bsp
open Verif.Sobj Verif.Rma Verif.Vis

/-- The program `exP` of `Ex.lean` with three barriers: a fair execution of it; the hypotheses of `C105_completes_partial`,
`C105_result_partial` (and `C102_issue`) are met. -/
example (nbi : Bool) : ∃ (R : Inf (exS true)) (pos : Nat → Nat → Nat), R.Fair ∧ Exec exD (exP nbi) 3 R pos ∧ R.mem = exMs 0 ∧
    (∃ i, ∀ p < 2, 3 ≤ (R.st i).lv p) ∧ ∃ i, ∀ j, i ≤ j → (R.st j).mem 1 0x20018 = 1 := by
  have hM0 : exMs 0 = exM := by
    funext p a
    unfold exMs
    rw [if_neg (fun h => h.2.2 rfl)]
  obtain ⟨g1, hput, a1, a2, a3, a4, a5, a6, a7⟩ := exPut true nbi
  have r1 : Run (exS true) (ginit exM) [.put 0 1 nbi none 0x10018#64 [(0x20018, 0x10020)] 0] g1 := Run.cons hput (Run.nil _)
  have hf : NoFault (exS true) g1 := noFault_safe r1 (by intro e he; rw [List.mem_singleton.1 he]; exact trivial)
  obtain ⟨l, g2, r2, hl, hset, hN⟩ := C94_barrier (N := 3) ⟨exM, _, r1⟩ hf (fun p _ => by rw [(a5 p).1]; omega)
  obtain ⟨R, hF, hm, hev, hwant, hmid, hend⟩ := C102_exists r1 r2 hset (fun p hp => by rw [(hN p hp).1, (hN p hp).2])
  have hmid : R.st 1 = g1 := hmid
  have h0 : R.ev 0 = some (.put 0 1 nbi none 0x10018#64 [(0x20018, 0x10020)] 0) := by rw [hev]; rfl
  have hst : R.st 0 = ginit exM := by rw [R.start, hm]
  have hsync : ∀ j e, 0 < j → R.ev j = some e → e.isSync := by
    intro j e hj he
    rw [hev] at he
    obtain ⟨n, rfl⟩ := Nat.exists_eq_add_of_le' hj
    rw [List.singleton_append, List.getElem?_cons_succ] at he
    exact hl e (List.mem_of_getElem? he)
  have late : ∀ p < 2, ∀ i, 0 < i → (R.st i).arr p < 3 → AtBarrier R i p := by
    intro p hp i hi hlt
    by_cases hmu : ∀ j, i ≤ j → R.Mute j p
    · have h1 := (R.rest ((([.put 0 1 nbi none 0x10018#64 [(0x20018, 0x10020)] 0] ++ l : List Ev)).length) (fun j h _ => hmu j h)).1.arr
      rw [hend _ (by omega), (hN p hp).1] at h1
      omega
    · obtain ⟨n, e, b1, b2, b3, b4⟩ := first_own hmu
      have hs := hsync _ e (by omega) b2
      have he : e = .enter p := by
        cases e <;> first | exact (hs : False).elim | cases b3
        rfl
      subst he
      funext e'
      apply propext
      rw [hwant] at b4
      rw [hwant, b4]
      exact ⟨fun h => (Option.some.inj h).symm, fun h => congrArg some h.symm⟩
  have hdoes : Does (exS true) 0 (.put 1 nbi [(0x20018, 0x10020)]) (.put 0 1 nbi none 0x10018#64 [(0x20018, 0x10020)] 0) :=
    ⟨none, 0x10018#64, 0, rfl, Or.inr ⟨rfl, Or.inr (Or.inl (by decide +kernel))⟩⟩
  let pos : Nat → Nat → Nat := fun i p => if p = 0 ∧ 0 < i ∧ (R.st i).arr 0 = 0 then 1 else 0
  have hnone : ∀ i p, 0 < i → (exP nbi).next p ((R.st i).arr p) (pos i p) ((R.st i).mem p) = none := by
    intro i p hi
    show (if _ then _ else _) = _
    rw [if_neg]
    rintro ⟨rfl, h1, h2⟩
    have h2 : (if (0 : Nat) = 0 ∧ 0 < i ∧ (R.st i).arr 0 = 0 then 1 else 0) = 0 := h2
    rw [if_pos ⟨rfl, hi, h1⟩] at h2
    cases h2
  have hkeep : ∀ i, 0 < i → (R.st (i + 1)).arr 0 = (R.st i).arr 0 → pos (i + 1) = pos i := by
    intro i hi h
    funext p
    show (if _ then _ else _) = (if _ then _ else _)
    rw [h]
    simp [hi]
  have E : Exec exD (exP nbi) 3 R pos := by
    refine ⟨?_, ?_, ?_, ?_, ?_, ?_, ?_, ?_⟩
    · funext p
      show (if _ then _ else _) = _
      rw [if_neg (by omega)]
    · intro i e he
      have hs := R.step i e he
      rcases Nat.eq_zero_or_pos i with rfl | hi
      · rw [h0] at he
        cases he
        have hp1 : pos 1 = Function.update (pos 0) 0 (pos 0 0 + 1) := by
          funext p
          rw [upd_at]
          by_cases hp : p = 0
          · rw [if_pos hp]
            show (if _ then _ else _) = _
            rw [if_pos ⟨hp, Nat.zero_lt_one, by rw [hmid]; exact (a5 0).1⟩]
            rfl
          · rw [if_neg hp]
            show (if _ then _ else _) = (if _ then _ else _)
            rw [if_neg (fun h => hp h.1), if_neg (fun h => hp h.1)]
        rw [hp1]
        refine XStep.act (x := ⟨R.st 0, pos 0⟩) 0 _ ?_ hdoes hs
        show (exP nbi).next 0 ((R.st 0).arr 0) (pos 0 0) _ = _
        rw [hst]
        rfl
      · have hy := hsync i e hi he
        by_cases hen : ∃ p, e = .enter p
        · obtain ⟨p, rfl⟩ := hen
          have hp1 : pos (i + 1) = Function.update (pos i) p 0 := by
            have ha := enter_arr hs
            funext q
            rw [upd_at]
            by_cases hq : q = p
            · subst hq
              rw [if_pos rfl]
              show (if _ then _ else _) = _
              rw [if_neg]
              rintro ⟨rfl, _, h⟩
              omega
            · rw [if_neg hq]
              by_cases hz : q = 0
              · subst hz
                have : (R.st (i + 1)).arr 0 = (R.st i).arr 0 := by
                  generalize R.st i = g at hs
                  generalize R.st (i + 1) = g' at hs
                  cases hs with
                  | enter p s' hf e d =>
                    show (Function.update _ _ _) 0 = _
                    rw [upd_at, if_neg hq]
                exact congrFun (hkeep i hi this) 0
              · show (if _ then _ else _) = (if _ then _ else _)
                rw [if_neg (fun h => hz h.1), if_neg (fun h => hz h.1)]
          rw [hp1]
          exact XStep.bar (x := ⟨R.st i, pos i⟩) p (hnone i p hi) hs
        · have hne : ∀ p, e ≠ .enter p := fun p h => hen ⟨p, h⟩
          rw [hkeep i hi (congrFun (arr_step hs hne) 0)]
          refine XStep.other (x := ⟨R.st i, pos i⟩) hne (fun b _ => ?_) hs
          cases e <;> first | exact (hy : False).elim | exact id
    · intro i he
      rcases Nat.eq_zero_or_pos i with rfl | hi
      · rw [h0] at he; cases he
      · exact hkeep i hi (by rw [R.idle i he])
    · intro i e p he ho
      rcases Nat.eq_zero_or_pos i with rfl | hi
      · rw [h0] at he
        cases he
        cases ho
        refine Or.inr ⟨_, ?_, hdoes, ?_⟩
        · show (if _ then _ else _) = _
          rw [hst]
          rfl
        · show (if _ then _ else _) = _
          rw [if_pos ⟨rfl, Nat.zero_lt_one, by rw [hmid]; exact (a5 0).1⟩]
          rfl
      · left
        have hy := hsync i e hi he
        cases e <;> first | exact (hy : False).elim | cases ho
        rfl
    · intro i p hfr hlt hnx
      rcases Nat.eq_zero_or_pos i with rfl | hi
      · have hp : p < 2 := hfr.1
        have hp0 : p ≠ 0 := by
          rintro rfl
          rw [hst] at hnx
          cases hnx
        have hmu : R.Mute 0 p := by
          intro e he ho
          rw [h0] at he
          cases he
          cases ho
          exact hp0 rfl
        have := late p hp 1 Nat.zero_lt_one (by rw [hmid, (a5 p).1]; omega)
        unfold AtBarrier at this ⊢
        rw [← this]
        exact (R.keeps 0 p hmu).symm
      · exact late p hfr.1 i hi hlt
    · intro i p hfr hlt hnx
      rcases Nat.eq_zero_or_pos i with rfl | hi
      · have hnx : (if _ then _ else _) = _ := hnx
        split at hnx <;> cases hnx
      · rw [hnone i p hi] at hnx; cases hnx
    · intro i p a hfr hlt hnx hq
      rcases Nat.eq_zero_or_pos i with rfl | hi
      · have hnx : (if _ then _ else _) = _ := hnx
        split at hnx
        · rename_i hc
          cases hnx
          obtain ⟨rfl, _⟩ := hc
          refine ⟨_, g1, ?_, hdoes, ?_⟩
          · exact R.does 0 _ 0 h0 rfl
          · have : (R.st 0).clear 0 = ginit exM := by
              rw [hst]
              unfold G.clear
              show (⟨_, _, _, _, _, _⟩ : G) = ⟨_, _, _, _, _, _⟩
              congr 1 <;> (funext q; rw [upd_at]; split <;> rfl)
            rw [this]
            exact hput
        · cases hnx
      · rw [hnone i p hi] at hnx; cases hnx
    · intro i p tgt a ty v _ hnx
      have hnx : (if _ then _ else _) = _ := hnx
      split at hnx <;> cases hnx
  have hmem : R.mem = exMs 0 := by rw [hM0]; exact hm
  refine ⟨R, pos, hF, E, hmem, C105_completes_partial (exMeans nbi) hmem hF E, ?_⟩
  obtain ⟨i, hi⟩ := C105_result_partial (exMeans nbi) (by decide) hmem hF E (by
    intro k hk p _ a ha
    unfold exActs at ha
    rw [if_neg (by omega)] at ha
    cases ha)
  exact ⟨i, fun j hj => (hi j hj (1, 0x20018) (Or.inl rfl)).2⟩

end Verif.Bsp
