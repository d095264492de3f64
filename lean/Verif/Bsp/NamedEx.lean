import Verif.Bsp.Named
/-!
# C106: a concrete program

The job of `Flow/BlocksEx.lean`: two PEs, both allocate 40 and 4 bytes. PE 0 calls `shmem_long_put(p, source, 5, 1)`, `p` its first block, then
both call `shmem_barrier_all` twice.
-/
namespace Verif.Bsp
open Verif.Sobj Verif.Rma Verif.Vis Verif.Api Verif.Flow
open Verif.Heap (heapSize trueSize Call)

/-- the call -/
def exCall : NAct := .rma .put (.typed ⟨.long, .long⟩) false exPutArgs 1

/-- the program -/
def exN : NProg where
  next p k i _ := if p = 0 ∧ k = 0 ∧ i = 0 then some exCall else none
  looks _ _ _ _ := False
  dep _ _ _ _ _ _ := rfl

def exNActs (k p : Nat) : List NAct := if p = 0 ∧ k = 0 then [exCall] else []

/-- the block of PE 1 holds what PE 0 put after the first barrier -/
def exNM (k : Nat) : Mems := fun p a => if p = 1 ∧ 0x203C0 ≤ a ∧ a < 0x203E8 ∧ k ≠ 0 then 1 else exM p a

/-- the block of PE 1 and the source on PE 0 -/
def exND (b : Nat × Int) : Prop := (b.1 = 1 ∧ 0x203C0 ≤ b.2 ∧ b.2 < 0x203E8) ∨ (b.1 = 0 ∧ 0x30000 ≤ b.2 ∧ b.2 < 0x30028)

/-- the bytes -/
def exXs : List (Int × Int) := (List.range 40).map fun j : Nat => (0x203C0 + (j : Int), 0x30000 + (j : Int))

theorem exCall_act : exCall.act exB 0 = .put 1 false exXs := by
  have : pairs ((RRt.put.remote exPutArgs).toInt - exB 0 + exB 1) (here .put exPutArgs).toInt (count .put exPutArgs) (Fn.typed ⟨.long, .long⟩).elem
      (dstride .put exPutArgs) (sstride .put exPutArgs) = exXs := by decide +kernel
  show Act.put 1 false (pairs _ _ _ _ _ _) = _
  rw [this]

theorem mem_exXs {x : Int × Int} (h : x ∈ exXs) : 0x203C0 ≤ x.1 ∧ x.1 < 0x203E8 ∧ x.2 = x.1 - 0x203C0 + 0x30000 := by
  obtain ⟨j, hj, rfl⟩ := List.mem_map.1 h
  have := List.mem_range.1 hj
  dsimp only
  omega

theorem exCall_ok {s : Dl.St} (h : s.live = [(48, 4), (0, 40)]) : exCall.Ok (exS true) 12 4096 exB s 0 := by
  refine ⟨rfl, (0, 40), 0, fun gpu mode hmode => ?_⟩
  have u := ex_use h
  exact ⟨u.exist, u.origin, u.target, u.held, u.inside, u.start, u.fits, u.remote, u.dflt, ⟨by decide, fun _ => by decide⟩⟩

theorem exNMeans {s : Dl.St} (h : s.live = [(48, 4), (0, 40)]) : NMeans (exS true) 12 4096 exB s exND exN exNM exNActs := by
  have hmem : ∀ k p a, a ∈ exNActs k p → p = 0 ∧ k = 0 ∧ a = exCall := by
    intro k p a h
    unfold exNActs at h
    split at h
    · rename_i e; exact ⟨e.1, e.2, List.mem_singleton.mp h⟩
    · cases h
  have hmem' : ∀ k p a, a ∈ (exNActs k p).map (NAct.act exB p) → p = 0 ∧ k = 0 ∧ a = .put 1 false exXs := by
    intro k p a h
    obtain ⟨c, hc, rfl⟩ := List.mem_map.1 h
    obtain ⟨rfl, rfl, rfl⟩ := hmem k p c hc
    exact ⟨rfl, rfl, exCall_act⟩
  have hnext : ∀ k p i m, i ≤ (exNActs k p).length → exN.next p k i m = (exNActs k p)[i]? := by
    intro k p i m hi
    show (if _ then _ else _) = _
    unfold exNActs at hi ⊢
    by_cases e : p = 0 ∧ k = 0
    · rw [if_pos e] at hi ⊢
      rcases i with _ | i
      · rw [if_pos ⟨e.1, e.2, rfl⟩]; rfl
      · rw [if_neg (by omega), List.getElem?_eq_none (by simp)]
    · rw [if_neg e, if_neg (fun h => e ⟨h.1, h.2.1⟩)]; rfl
  have hw : ∀ b, Act.writes 0 b (.put 1 false exXs) ↔ b.1 = 1 ∧ 0x203C0 ≤ b.2 ∧ b.2 < 0x203E8 := by
    intro b
    constructor
    · rintro ⟨h1, x, hx, h2⟩
      have := mem_exXs hx
      exact ⟨h1, by omega⟩
    · rintro ⟨h1, h2, h3⟩
      refine ⟨h1, (b.2, b.2 - 0x203C0 + 0x30000), List.mem_map.2 ⟨(b.2 - 0x203C0).toNat, List.mem_range.2 (by omega), ?_⟩, rfl⟩
      refine Prod.ext ?_ ?_ <;> dsimp only <;> omega
  have hr : ∀ b, Act.reads 0 b (.put 1 false exXs) → b.1 = 0 ∧ 0x30000 ≤ b.2 ∧ b.2 < 0x30028 := by
    rintro b ⟨h1, x, hx, h2⟩
    have := mem_exXs hx
    exact ⟨h1, by omega⟩
  refine ⟨fun k => Phase.plain ?_ ?_ ?_ ?_ ?_ ?_ ?_ ?_ ?_, ?_, ?_⟩
  · intro p _ a ha
    obtain ⟨rfl, rfl, rfl⟩ := hmem' k p a ha
    rfl
  · intro p _ i hi
    rw [List.length_map] at hi
    show (exN.next _ _ _ _).map _ = _
    rw [hnext k p i _ hi, List.getElem?_map]
  · rintro p _ b ⟨a, ha, hb⟩
    obtain ⟨rfl, rfl, rfl⟩ := hmem' k p a ha
    have hl : (exNActs 0 0).map (NAct.act exB 0) = [.put 1 false exXs] := congrArg (fun x => [x]) exCall_act
    have hb' := (hw b).1 hb
    obtain ⟨h1, x, hx, h2⟩ := hb
    dsimp only
    rw [hl]
    show exNM 1 b.1 b.2 = Act.apply 0 (exNM 0) (.put 1 false exXs) b.1 b.2
    unfold Act.apply
    dsimp only
    rw [if_pos h1]
    have hsome : (pick exXs b.2).isSome := List.find?_isSome.2 ⟨x, hx, by rw [h2]; exact beq_self_eq_true _⟩
    obtain ⟨y, hy⟩ := Option.isSome_iff_exists.1 hsome
    rw [hy]
    show exNM 1 b.1 b.2 = exNM 0 0 y.2
    unfold exNM
    rw [if_pos ⟨hb'.1, hb'.2.1, hb'.2.2, by decide⟩, if_neg (fun h => by cases h.1)]
    rfl
  · intro b hD hno
    unfold exNM
    by_cases e : b.1 = 1 ∧ 0x203C0 ≤ b.2 ∧ b.2 < 0x203E8
    · by_cases hk : k = 0
      · subst hk
        exact absurd ((hw b).2 e) (hno 0 (by decide) _ (List.mem_map.2 ⟨exCall, List.mem_singleton.2 rfl, exCall_act⟩))
      · rw [if_pos ⟨e.1, e.2.1, e.2.2, by omega⟩, if_pos ⟨e.1, e.2.1, e.2.2, hk⟩]
    · rw [if_neg (fun h => e ⟨h.1, h.2.1, h.2.2.1⟩), if_neg (fun h => e ⟨h.1, h.2.1, h.2.2.1⟩)]
  · intro p _ a ha b hb
    obtain ⟨rfl, rfl, rfl⟩ := hmem' k p a ha
    rcases hb with hb | hb
    · exact Or.inl ((hw b).1 hb)
    · exact Or.inr (hr b hb)
  · intro p _ i _ a hl
    exact absurd hl id
  · intro p _ q _ hpq a ha b _
    obtain ⟨rfl, rfl, rfl⟩ := hmem' k p a ha
    refine ⟨fun c hc => ?_, fun _ _ _ => id⟩
    exact absurd (hmem' 0 q c hc).1.symm hpq
  · intro p _ i j hij hj _ a ha
    refine ⟨fun b _ _ => ⟨fun c hc => ?_, fun _ => id⟩, fun b _ _ c hc => ?_⟩
    all_goals
      obtain ⟨rfl, rfl, rfl⟩ := hmem' k p a (List.mem_of_getElem? ha)
      have hl : ((exNActs 0 0).map (NAct.act exB 0)).length = 1 := rfl
      dsimp only at hj hc
      rw [List.getElem?_eq_none (by omega)] at hc
      cases hc
  · intro p _ a ha
    obtain ⟨rfl, rfl, rfl⟩ := hmem' k p a ha
    refine ⟨fun b hb hb' => ?_, fun x hx y hy e => ?_⟩
    · have h1 := ((hw b).1 hb).1
      have h2 := (hr b hb').1
      omega
    · have h1 := mem_exXs hx
      have h2 := mem_exXs hy
      exact Prod.ext e (by omega)
  · intro k p _ i hi
    exact hnext k p i _ hi
  · intro k p _ a ha
    obtain ⟨rfl, rfl, rfl⟩ := hmem k p a ha
    exact exCall_ok h

/-- a fair execution of the program with two barriers; the hypotheses of `C106_completes_partial`, `C106_result_partial`, `C106_accepted` are met
and, with the execution up to any time, those of `C106_moves_partial` and its consequences: the block of PE 1 holds the longs for good -/
example : ∃ (s : Dl.St) (R : Inf (exS true)) (pos : Nat → Nat → Nat), Made 12 4096 exB 0 exCalls s [some 0, some 48] ∧ R.Fair ∧
    NExec exND exN 2 R pos ∧ R.mem = exNM 0 ∧ (∀ i, ∃ l, NRun (exS true) exND exN (start (exNM 0)) l ⟨R.st i, pos i⟩) ∧ (∃ i, ∀ p < 2, 2 ≤ (R.st i).lv p) ∧
    ∃ i, ∀ j, i ≤ j → ∀ y < 40, (R.st j).mem 1 (adr exB 1 (0, 40) y : Nat) = 1 := by
  obtain ⟨s, hmade, hlive⟩ := ex_made
  have hM0 : exNM 0 = exM := by
    funext p a
    unfold exNM
    rw [if_neg (fun h => h.2.2.2 rfl)]
  have hclear : (ginit exM).clear 0 = ginit exM := by
    unfold G.clear
    show (⟨_, _, _, _, _, _⟩ : G) = ⟨_, _, _, _, _, _⟩
    congr 1 <;> (funext q; rw [upd_at]; split <;> rfl)
  obtain ⟨e0, g1, hdo⟩ := C106_accepted ex_job (exCall_ok hlive) ⟨exM, [], Run.nil _⟩ (show Free (exS true) (ginit exM) 0 from ⟨by decide, rfl, rfl⟩)
  rw [hclear] at hdo
  have hdo : exCall.Does (exS true) 0 (ginit exM) e0 g1 := hdo
  obtain ⟨hd0, hput⟩ := named_does ex_job (exCall_ok hlive) hdo
  have hown : e0.own = some 0 := does_own hd0
  have hsafe0 : e0.Safe (exS true) := does_safe hd0 (fun _ _ _ _ h => by rw [exCall_act] at h; cases h)
  have hne0 : ∀ p, e0 ≠ .enter p ∧ e0 ≠ .leave p := fun p => does_noenter hd0 p
  have harr1 : g1.arr = (ginit exM).arr := arr_step hput (fun p => (hne0 p).1)
  have a5 : ∀ p, g1.arr p = 0 := fun p => by rw [harr1]; rfl
  have r1 : Run (exS true) (ginit exM) [e0] g1 := Run.cons hput (Run.nil _)
  have hf : NoFault (exS true) g1 := noFault_safe r1 (by intro e he; rw [List.mem_singleton.1 he]; exact hsafe0)
  obtain ⟨l, g2, r2, hl, hset, hN⟩ := C94_barrier (N := 2) ⟨exM, _, r1⟩ hf (fun p _ => by rw [a5 p]; omega)
  obtain ⟨R, hF, hm, hev, hwant, hmid, hend⟩ := C102_exists r1 r2 hset (fun p hp => by rw [(hN p hp).1, (hN p hp).2])
  have hmid : R.st 1 = g1 := hmid
  have h0 : R.ev 0 = some e0 := by rw [hev]; rfl
  have hst : R.st 0 = ginit exM := by rw [R.start, hm]
  have hsync : ∀ j e, 0 < j → R.ev j = some e → e.isSync := by
    intro j e hj he
    rw [hev] at he
    obtain ⟨n, rfl⟩ := Nat.exists_eq_add_of_le' hj
    rw [List.singleton_append, List.getElem?_cons_succ] at he
    exact hl e (List.mem_of_getElem? he)
  have late : ∀ p < 2, ∀ i, 0 < i → (R.st i).arr p < 2 → AtBarrier R i p := by
    intro p hp i hi hlt
    by_cases hmu : ∀ j, i ≤ j → R.Mute j p
    · have h1 := (R.rest ((([e0] ++ l : List Ev)).length) (fun j h _ => hmu j h)).1.arr
      rw [hend _ (by omega), (hN p hp).1] at h1
      omega
    · obtain ⟨n, e, b1, b2, b3, b4⟩ := first_own hmu
      have hs := hsync _ e (by omega) b2
      have he : e = .enter p := by
        cases e <;> first | exact (hs : False).elim | cases b3
        rfl
      subst he
      funext e'
      apply propext
      rw [hwant] at b4
      rw [hwant, b4]
      exact ⟨fun h => (Option.some.inj h).symm, fun h => congrArg some h.symm⟩
  let pos : Nat → Nat → Nat := fun i p => if p = 0 ∧ 0 < i ∧ (R.st i).arr 0 = 0 then 1 else 0
  have hnone : ∀ i p, 0 < i → exN.next p ((R.st i).arr p) (pos i p) ((R.st i).mem p) = none := by
    intro i p hi
    show (if _ then _ else _) = _
    rw [if_neg]
    rintro ⟨rfl, h1, h2⟩
    have h2 : (if (0 : Nat) = 0 ∧ 0 < i ∧ (R.st i).arr 0 = 0 then 1 else 0) = 0 := h2
    rw [if_pos ⟨rfl, hi, h1⟩] at h2
    cases h2
  have hkeep : ∀ i, 0 < i → (R.st (i + 1)).arr 0 = (R.st i).arr 0 → pos (i + 1) = pos i := by
    intro i hi h
    funext p
    show (if _ then _ else _) = (if _ then _ else _)
    rw [h]
    simp [hi]
  have E : NExec exND exN 2 R pos := by
    refine ⟨?_, ?_, ?_, ?_, ?_, ?_⟩
    · funext p
      show (if _ then _ else _) = _
      rw [if_neg (by omega)]
    · intro i e he
      have hs := R.step i e he
      rcases Nat.eq_zero_or_pos i with rfl | hi
      · rw [h0] at he
        cases he
        have hp1 : pos 1 = Function.update (pos 0) 0 (pos 0 0 + 1) := by
          funext p
          rw [upd_at]
          by_cases hp : p = 0
          · rw [if_pos hp]
            show (if _ then _ else _) = _
            rw [if_pos ⟨hp, Nat.zero_lt_one, by rw [hmid]; exact a5 0⟩]
            rfl
          · rw [if_neg hp]
            show (if _ then _ else _) = (if _ then _ else _)
            rw [if_neg (fun h => hp h.1), if_neg (fun h => hp h.1)]
        rw [hp1]
        refine NStep.act (x := ⟨R.st 0, pos 0⟩) 0 exCall ?_ (by rw [hst, hmid]; exact hdo)
        show exN.next 0 ((R.st 0).arr 0) (pos 0 0) _ = _
        rw [hst]
        rfl
      · have hy := hsync i e hi he
        by_cases hen : ∃ p, e = .enter p
        · obtain ⟨p, rfl⟩ := hen
          have hp1 : pos (i + 1) = Function.update (pos i) p 0 := by
            have ha := enter_arr hs
            funext q
            rw [upd_at]
            by_cases hq : q = p
            · subst hq
              rw [if_pos rfl]
              show (if _ then _ else _) = _
              rw [if_neg]
              rintro ⟨rfl, _, h⟩
              omega
            · rw [if_neg hq]
              by_cases hz : q = 0
              · subst hz
                have : (R.st (i + 1)).arr 0 = (R.st i).arr 0 := by
                  generalize R.st i = g at hs
                  generalize R.st (i + 1) = g' at hs
                  cases hs with
                  | enter p s' hf e d =>
                    show (Function.update _ _ _) 0 = _
                    rw [upd_at, if_neg hq]
                exact congrFun (hkeep i hi this) 0
              · show (if _ then _ else _) = (if _ then _ else _)
                rw [if_neg (fun h => hz h.1), if_neg (fun h => hz h.1)]
          rw [hp1]
          exact NStep.bar (x := ⟨R.st i, pos i⟩) p (hnone i p hi) hs
        · have hne : ∀ p, e ≠ .enter p := fun p h => hen ⟨p, h⟩
          rw [hkeep i hi (congrFun (arr_step hs hne) 0)]
          refine NStep.other (x := ⟨R.st i, pos i⟩) hne (fun b _ => ?_) hs
          cases e <;> first | exact (hy : False).elim | exact id
    · intro i he
      rcases Nat.eq_zero_or_pos i with rfl | hi
      · rw [h0] at he; cases he
      · exact hkeep i hi (by rw [R.idle i he])
    · intro i e p he ho
      rcases Nat.eq_zero_or_pos i with rfl | hi
      · rw [h0] at he
        cases he
        rw [hown] at ho
        cases ho
        refine Or.inr ⟨exCall, ?_, by rw [hst, hmid]; exact hdo, ?_⟩
        · show (if _ then _ else _) = _
          rw [hst]
          rfl
        · show (if _ then _ else _) = _
          rw [if_pos ⟨rfl, Nat.zero_lt_one, by rw [hmid]; exact a5 0⟩]
          rfl
      · left
        have hy := hsync i e hi he
        cases e <;> first | exact (hy : False).elim | cases ho
        rfl
    · intro i p hfr hlt
      rcases Nat.eq_zero_or_pos i with rfl | hi
      · by_cases hp0 : p = 0
        · subst hp0
          have hnx : exN.next 0 ((R.st 0).arr 0) (pos 0 0) ((R.st 0).mem 0) = some exCall := by
            rw [hst]
            rfl
          rw [hnx]
          intro e g' hd
          rw [hst, hclear] at hd
          have e1 := (named_rma ex_job (exCall_ok hlive) hd).2.2
          have e2 := (named_rma ex_job (exCall_ok hlive) hdo).2.2
          rw [e1, ← e2]
          exact R.does 0 _ 0 h0 hown
        · have hnx : exN.next p ((R.st 0).arr p) (pos 0 p) ((R.st 0).mem p) = none := by
            show (if _ then _ else _) = _
            rw [if_neg (fun h => hp0 h.1)]
          rw [hnx]
          have hmu : R.Mute 0 p := by
            intro e he ho
            rw [h0] at he
            cases he
            rw [hown] at ho
            cases ho
            exact hp0 rfl
          have := late p hfr.1 1 Nat.zero_lt_one (by rw [hmid, a5 p]; omega)
          unfold AtBarrier at this
          show AtBarrier R 0 p
          unfold AtBarrier
          rw [← this]
          exact (R.keeps 0 p hmu).symm
      · rw [hnone i p hi]
        exact late p hfr.1 i hi hlt
    · intro i p m _ hnx
      have hnx : (if _ then _ else _) = _ := hnx
      split at hnx <;> cases hnx
  have hmem : R.mem = exNM 0 := by rw [hM0]; exact hm
  have hmn := exNMeans hlive
  refine ⟨s, R, pos, hmade, hF, E, hmem, fun i => hmem ▸ E.named i, C106_completes_partial ex_job hmn hmem hF E, ?_⟩
  obtain ⟨i, hi⟩ := C106_result_partial ex_job hmn (by decide) hmem hF E (by
    intro k hk p _ a ha
    unfold exNActs at ha
    rw [if_neg (by omega)] at ha
    cases ha)
  refine ⟨i, fun j hj y hy => ?_⟩
  have he : ((adr exB 1 (0, 40) y : Nat) : Int) = 0x203C0 + y := by unfold adr exB; omega
  rw [he, (hi j hj (1, 0x203C0 + (y : Int)) (Or.inl ⟨rfl, by dsimp only; omega, by dsimp only; omega⟩)).2]
  show (if _ then _ else _) = _
  rw [if_pos ⟨rfl, by omega, by omega, by decide⟩]

end Verif.Bsp
