import Verif.Bsp.Steps
/-!
# Phases: the program's own steps keep the invariant
-/
namespace Verif.Bsp
open Verif.Sobj Verif.Rma Verif.Vis
open Verif.Order (Pend)
open Verif.Amo (TyIdx)

/-- nobody else reads or writes counters -/
theorem Phase.noadd {n : Nat} {D : Nat × Int → Prop} {P : Prog} {k : Nat} {m m' : Mems} {acts : Nat → List Act} (h : Phase n D P k m acts m')
    {q : Nat} (hq : q < n) {c : Act} (hc : c ∈ acts q) (hca : c.isAdd = true) {b : Nat × Int} (hw : c.writes q b) {p : Nat} (hp : p < n) {a : Act}
    (ha : a ∈ acts p) (hna : a.isAdd = false) (hk : a.writes p b ∨ a.reads p b) : False := by
  cases c with
  | add t w ty v =>
    obtain ⟨v', e⟩ := ((h.words q hq t w ty v hc).2 b hw.1 hw.2.1 hw.2.2).1 p hp a ha hk
    rw [e] at hna
    cases hna
  | _ => cases hca

/-- only additions write counters -/
theorem Phase.adds {n : Nat} {D : Nat × Int → Prop} {P : Prog} {k : Nat} {m m' : Mems} {acts : Nat → List Act} (h : Phase n D P k m acts m')
    {b : Nat × Int} (hb : InCounter n acts b) {p : Nat} (hp : p < n) {a : Act} (ha : a ∈ acts p) (hw : a.writes p b) : a.isAdd = true := by
  obtain ⟨t, w, ty, ⟨q, hq, v, hv⟩, h1, h2, h3⟩ := hb
  obtain ⟨v', e⟩ := ((h.words q hq t w ty v hv).2 b h1 h2 h3).1 p hp a ha (Or.inl hw)
  rw [e]
  rfl

/-- additions write counters only -/
theorem in_counter {n : Nat} {acts : Nat → List Act} {p : Nat} (hp : p < n) {a : Act} (ha : a ∈ acts p) (haa : a.isAdd = true) {b : Nat × Int}
    (hw : a.writes p b) : InCounter n acts b := by
  cases a with
  | add t w ty v => exact ⟨t, w, ty, ⟨p, hp, v, ha⟩, hw⟩
  | _ => cases haa

/-- a byte that an action writes: it is on its way, or there -/
theorem byte_act {S : Sys} {D : Nat × Int → Prop} {P : Prog} {M : Nat → Mems} {acts : Nat → Nat → List Act} (hm : Means S.npes D P M acts)
    {K : Nat} {x : X} (h : Inv S D M acts K x) {p : Nat} {a : Act} {e : Ev} {g' : G} (hd : Does S p a e) (s : Step S x.g e g')
    (hf : Free S x.g p) (hK : x.g.arr p = K) (ha : (acts K p)[x.pos p]? = some a) {c' : Nat → Nat} (hc' : c' p = x.pos p + 1)
    {b : Nat × Int} (hw : a.writes p b) (hna : a.isAdd = false) : ByteOk S K g' (M K) (acts K) c' b := by
  have hmem := List.mem_of_getElem? ha
  have hlt : x.pos p < (acts K p).length := (List.getElem?_eq_some_iff.mp ha).1
  have hcl := (hm K).clean p hf.1 a hmem
  have hev : ∀ k, e.writes k ↔ a.writes p k := does_writes hd
  -- bytes the action reads or writes
  have touch : ∀ k, a.writes p k ∨ a.reads p k → NoWriter x.g k ∧ x.g.mem k.1 k.2 = alone (M K) p (acts K p) (x.pos p) k.1 k.2 := by
    intro k hk
    refine read_ok hm h hf ((hm K).inside p hf.1 a hmem k hk) ?_ ?_
    · intro q hq hne c hc hcw
      cases hca : c.isAdd with
      | false =>
        have := ((hm K).race q hq p hf.1 hne c hc hca k hcw).1 a hmem
        rcases hk with hk | hk
        · exact this.1 hk
        · exact this.2 hk
      | true => exact (hm K).noadd hq hc hca hcw hf.1 hmem hna hk
    · intro j hj c hc hqb hl hcw
      cases hca : c.isAdd with
      | false =>
        have := (((hm K).own p hf.1 j (x.pos p) hj (by omega) hqb c hc hca).1 k hl hcw).1 a ha
        rcases hk with hk | hk
        · exact this.1 hk
        · exact this.2 hk
      | true => exact (hm K).noadd hf.1 (List.mem_of_getElem? hc) hca hcw hf.1 hmem hna hk
  refine ⟨alone (M K) p (acts K p) (x.pos p + 1) b.1 b.2, Or.inl ⟨p, hf.1, ⟨x.pos p, a, by omega, ha, hw⟩, by rw [hc']⟩, ?_⟩
  rw [alone_succ (M K) p ha]
  have hnq : ¬ QuietBetween (acts K p) (x.pos p) (c' p) := by
    rintro ⟨q, h1, h2, _⟩
    rw [hc'] at h2
    omega
  have harr : g'.arr = x.g.arr := arr_step s (fun q => (does_noenter hd q).1)
  cases a with
  | put tgt nbi xs =>
    obtain ⟨ctx, addr, ep, rfl, hcov⟩ := hd
    obtain ⟨hb1, y, hy, hy2⟩ := hw
    obtain ⟨b1, b2⟩ := b
    dsimp only at hb1 hy2
    subst hb1
    subst hy2
    have hrd : Act.reads p (p, y.2) (.put b1 nbi xs) := ⟨rfl, y, hy, rfl⟩
    have hwr : Act.writes p (b1, y.1) (.put b1 nbi xs) := ⟨rfl, y, hy, rfl⟩
    obtain ⟨_, _, _, pd, _, hep, ho, hpc⟩ := put_only h.gi s hy (fun z hz e => hcl.2 z hz y hy e) (touch _ (Or.inl hwr)).1
      (fun _ => ⟨(touch _ (Or.inr hrd)).1, fun hc => hcl.1 _ ((hev _).mp hc) hrd⟩)
    have hv : Act.apply p (alone (M K) p (acts K p) (x.pos p)) (.put b1 nbi xs) b1 y.1 = x.g.mem p y.2 := by
      show (if b1 = b1 then _ else _) = _
      rw [if_pos rfl, pick_some hcl.2 hy]
      exact (touch _ (Or.inr hrd)).2.symm
    rw [hv]
    refine Or.inr ⟨p, x.pos p, _, some pd, _, ⟨hf.1, by omega, ha, hwr, by rw [harr]; exact hK, ho, hnq, (fun e => by cases e), ?_, ?_⟩⟩
    · intro pd' e
      cases e
      refine ⟨trivial, hpc hcov, ?_⟩
      rw [hep]
      cases s with
      | put p tgt nbi ctx addr src n gpu mode oc tc oty tty xs s' hf hm e hx d => exact hK
    · intro k' e
      cases nbi with
      | false => cases e
      | true => cases e; exact ⟨hrd, fun _ => rfl⟩
  | get tgt nbi xs =>
    obtain ⟨ctx, addr, ep, rfl, hcov⟩ := hd
    obtain ⟨hb1, y, hy, hy2⟩ := hw
    obtain ⟨b1, b2⟩ := b
    dsimp only at hb1 hy2
    subst hb1
    subst hy2
    have hrd : Act.reads b1 (tgt, y.2) (.get tgt nbi xs) := ⟨rfl, y, hy, rfl⟩
    have hwr : Act.writes b1 (b1, y.1) (.get tgt nbi xs) := ⟨rfl, y, hy, rfl⟩
    obtain ⟨own, hn, hsm, ho⟩ := get_cov h.gi s hy (fun z hz e => hcl.2 z hz y hy e) (touch _ (Or.inl hwr)).1 (touch _ (Or.inr hrd)).1
      (fun hc => hcl.1 _ ((hev _).mp hc) hrd)
    have hv : Act.apply b1 (alone (M K) b1 (acts K b1) (x.pos b1)) (.get tgt nbi xs) b1 y.1 = x.g.mem tgt y.2 := by
      show (if b1 = b1 then _ else _) = _
      rw [if_pos rfl, pick_some hcl.2 hy]
      exact (touch _ (Or.inr hrd)).2.symm
    rw [hv]
    refine Or.inr ⟨b1, x.pos b1, _, own, _, ⟨hf.1, by omega, ha, hwr, by rw [harr]; exact hK, ho, hnq, hn, ?_, ?_⟩⟩
    · intro pd e
      obtain ⟨h1, h2, h3⟩ := hsm pd e
      exact ⟨h1, h3 (hcov h1), by rw [h2, hK]⟩
    · intro k' e
      cases e
      refine ⟨hrd, fun hne => ?_⟩
      cases own with
      | none => exact absurd rfl hne
      | some pd => exact (hsm pd rfl).1
  | store a v =>
    cases hd
    cases hw
    left
    have hnw := (touch (p, a) (Or.inl rfl)).1
    have hv : Act.apply p (alone (M K) p (acts K p) (x.pos p)) (.store a v) p a = v := by
      show (if p = p ∧ a = a then _ else _) = _
      rw [if_pos ⟨rfl, rfl⟩]
    rw [hv]
    cases s with
    | store p a v hf' =>
      refine ⟨?_, by simp⟩
      rintro c ⟨r, own, hc⟩ hcw
      exact hnw c ⟨r, own, hc⟩ hcw
  | add tgt a ty v => cases hna
  | quiet => exact absurd hw id

/-- an action of the program -/
theorem inv_act {S : Sys} {D : Nat × Int → Prop} {P : Prog} {M : Nat → Mems} {acts : Nat → Nat → List Act} (hm : Means S.npes D P M acts)
    {K : Nat} {x : X} (h : Inv S D M acts K x) {p : Nat} {a : Act} {e : Ev} {g' : G}
    (hn : P.next p (x.g.arr p) (x.pos p) (x.g.mem p) = some a) (hd : Does S p a e)
    (s : Step S x.g e g') : Inv S D M acts K ⟨g', Function.update x.pos p (x.pos p + 1)⟩ := by
  have hf := does_free hd s
  have hK := free_phase h hf
  rw [hK, next_ok hm h hf] at hn
  have ha := hn
  have hmem := List.mem_of_getElem? ha
  have hlt : x.pos p < (acts K p).length := (List.getElem?_eq_some_iff.mp ha).1
  have harr : g'.arr = x.g.arr := arr_step s (fun q => (does_noenter hd q).1)
  have hlv : ∀ q, g'.lv q = x.g.lv q := by
    intro q
    rcases lv_step s q with e1 | ⟨e1, _⟩
    · exact e1
    · exact absurd e1 (does_noenter hd q).2
  have hcp : done K x (acts K) p = x.pos p := by unfold done; rw [if_pos hK]
  have hc' : ∀ q, done K ⟨g', Function.update x.pos p (x.pos p + 1)⟩ (acts K) q = if q = p then x.pos p + 1 else done K x (acts K) q := by
    intro q
    unfold done
    dsimp only
    rw [harr]
    by_cases e1 : q = p
    · subst e1; rw [if_pos rfl, if_pos hK, Function.update_self]
    · rw [if_neg e1, Function.update_of_ne e1]
  refine ⟨gi_step h.gi s, ?_, ?_, ?_, ?_, ?_, ?_, ?_⟩
  · intro q hq; dsimp only; rw [harr]; exact h.lo q hq
  · dsimp only; rw [harr]; exact h.min
  · intro q hq; dsimp only; rw [harr, hlv]; exact h.one q hq
  · intro q hq hne
    dsimp only at hne ⊢
    rw [harr, hlv] at hne
    by_cases e1 : q = p
    · subst e1; exact absurd hf.2.1 hne
    · rw [Function.update_of_ne e1]; exact h.pos0 q hq hne
  · intro q hq e1
    dsimp only at e1 ⊢
    rw [harr] at e1
    by_cases e2 : q = p
    · subst e2; rw [Function.update_self]; omega
    · rw [Function.update_of_ne e2]; exact h.len q hq e1
  · intro b hD hcn
    by_cases hw : a.writes p b
    · refine byte_act hm h hd s hf hK ha (by rw [hc', if_pos rfl]) hw ?_
      cases haa : a.isAdd with
      | false => rfl
      | true => exact absurd (in_counter hf.1 hmem haa hw) hcn
    · refine byte_keep s (h.byte b hD hcn) (fun hc => hw ((does_writes hd b).mp hc)) ?_ ?_ ?_ ?_
      · intro v q j c own src F k' hk' hc
        have hwk := (does_writes hd k').mp hc
        obtain ⟨hr, hl⟩ := F.osrc k' hk'
        by_cases e1 : q = p
        · subst e1
          have hne : own ≠ none := fun e2 => F.onone e2 hf.2.2
          have hj := F.hj
          have hq := F.oquiet
          rw [hcp] at hj hq
          refine ((hm K).own q hf.1 j (x.pos q) hj (by omega) hq c F.ha ?_).2 k' (hl hne) hr a ha hwk
          cases c with
          | add t w ty v => exact absurd hr id
          | _ => rfl
        · cases haa : a.isAdd with
          | false => exact (((hm K).race p hf.1 q F.hp (Ne.symm e1) a hmem haa k' hwk).1 c (List.mem_of_getElem? F.ha)).2 hr
          | true =>
            refine (hm K).noadd hf.1 hmem haa hwk F.hp (List.mem_of_getElem? F.ha) ?_ (Or.inr hr)
            cases c with
            | add t w ty v => exact absurd hr id
            | _ => rfl
      · have hwr : ∀ q, Wrote (acts K) (done K ⟨g', Function.update x.pos p (x.pos p + 1)⟩ (acts K)) q b ↔ Wrote (acts K) (done K x (acts K)) q b := by
          intro q
          unfold Wrote
          constructor
          · rintro ⟨j, c, hj, hc, hcw⟩
            refine ⟨j, c, ?_, hc, hcw⟩
            rw [hc'] at hj
            split at hj
            · rename_i e1
              subst e1
              rw [hcp]
              rcases Nat.lt_or_ge j (x.pos q) with h1 | h1
              · exact h1
              · obtain rfl : j = x.pos q := by omega
                rw [ha] at hc
                cases hc
                exact absurd hcw hw
            · exact hj
          · rintro ⟨j, c, hj, hc, hcw⟩
            refine ⟨j, c, ?_, hc, hcw⟩
            rw [hc']
            split
            · rename_i e1
              subst e1
              rw [hcp] at hj
              omega
            · exact hj
        rintro v (⟨q, hq, hwq, e1⟩ | ⟨hnw, e1⟩)
        · refine Or.inl ⟨q, hq, (hwr q).mpr hwq, ?_⟩
          rw [e1, hc']
          split
          · rename_i e2
            subst e2
            rw [hcp, alone_succ (M K) q ha, apply_frame q _ a hw]
          · rfl
        · exact Or.inr ⟨fun q hq hwq => hnw q hq ((hwr q).mp hwq), e1⟩
      · intro q hq
        rw [hc']
        split
        · rename_i e1; subst e1; rw [hcp]; omega
        · exact Nat.le_refl _
      · intro v q j c own src F
        by_cases e1 : q = p
        · subst e1
          by_cases e2 : a = .quiet
          · subst e2
            right
            have hfl : g'.fly q = [] ∧ g'.busy q = [] := by
              rcases hd with rfl | rfl
              · exact quiet_step h.gi (Or.inl rfl) s
              · exact quiet_step h.gi (Or.inr rfl) s
            exact ⟨fun _ => hfl.2, fun pd _ y hy => by rw [hfl.1] at hy; cases hy⟩
          · left
            refine ⟨by rw [harr]; exact hK, ?_⟩
            rintro ⟨r, h1, h2, h3⟩
            have hq := F.oquiet
            rw [hcp] at hq
            rw [hc', if_pos rfl] at h2
            rcases Nat.lt_or_ge r (x.pos q) with h4 | h4
            · exact hq ⟨r, h1, h4, h3⟩
            · obtain rfl : r = x.pos q := by omega
              rw [ha] at h3
              cases h3
              exact e2 rfl
        · left
          rw [harr, hc', if_neg e1]
          exact ⟨F.hk, F.oquiet⟩
  · intro t w ty hcn
    obtain ⟨q, hq, v, hv⟩ := hcn
    have hwd := (hm K).words q hq t w ty v hv
    have W := h.word t w ty ⟨q, hq, v, hv⟩
    by_cases htw : ∃ y, w ≤ y ∧ y < w + ty.bytes ∧ a.writes p (t, y)
    · obtain ⟨y, h1, h2, h3⟩ := htw
      obtain ⟨v', rfl⟩ := (hwd.2 (t, y) rfl h1 h2).1 p hf.1 a hmem (Or.inl h3)
      exact word_add h.gi s hwd.1 W hd hf.1 hK (by rw [hcp]; exact ha) (fun r => by rw [hc', hcp])
    · refine word_keep s hwd.1 W ?_ ?_ ?_ ?_
      · intro y h1 h2 h3
        exact htw ⟨y, h1, h2, (does_writes hd _).mp h3⟩
      · refine Finset.sum_congr rfl fun r _ => ?_
        rw [hc']
        split
        · rename_i e1
          subst e1
          have hz : a.addend t w ty = 0 := by
            cases a with
            | add t' a' ty' v' =>
              refine if_neg ?_
              rintro ⟨rfl, rfl, rfl⟩
              have := bytes_pos ty'
              exact htw ⟨a', le_refl _, by omega, rfl, le_refl _, by dsimp only; omega⟩
            | _ => rfl
          rw [addends_succ t w ty ha, hz, add_zero, hcp]
        · rfl
      · intro r _
        rw [hc']
        split
        · rename_i e1; subst e1; rw [hcp]; omega
        · exact Nat.le_refl _
      · intro b r own hat _ _ hk
        refine ⟨by rw [harr]; exact hk, fun j => ?_⟩
        rw [hc']
        split
        · rename_i e1
          subst e1
          rintro ⟨i, h1, h2, h3⟩
          rcases Nat.lt_or_ge i (x.pos r) with h4 | h4
          · exact ⟨i, h1, by rw [hcp]; exact h4, h3⟩
          · exfalso
            obtain rfl : i = x.pos r := by omega
            rw [ha] at h3
            cases h3
            have hfl : g'.fly r = [] ∧ g'.busy r = [] := by
              rcases hd with rfl | rfl
              · exact quiet_step h.gi (Or.inl rfl) s
              · exact quiet_step h.gi (Or.inr rfl) s
            rcases hat with ⟨z, hz, _⟩ | ⟨_, hz⟩
            · rw [hfl.1] at hz; cases hz
            · rw [hfl.2] at hz; cases hz
        · exact fun h => h

/-- a counter when a phase begins -/
theorem word_start {S : Sys} {M : Nat → Mems} {acts : Nat → Nat → List Act}
    {K : Nat} {g : G} {c : Nat → Nat} {t : Nat} {w : Int} {ty : TyIdx}
    (h : ∀ y, w ≤ y → y < w + ty.bytes → NoWriter g (t, y) ∧ g.mem t y = M K t y) (hc : ∀ q < S.npes, c q = 0) :
    WordOk S K g (M K) (acts K) c t w ty := by
  have hpos := bytes_pos ty
  refine ⟨?_, ?_, ?_⟩
  · intro b hb k h1 h2 h3 hw
    exact absurd (by rw [← h1]; exact hw) ((h k.2 h2 h3).1 b hb)
  · rw [total_zero (h w (le_refl _) (by omega)).1, add_zero, wordAt_congr (fun y h1 h2 => (h y h1 h2).2),
      Finset.sum_eq_zero (fun q hq => by rw [hc q (Finset.mem_range.mp hq)]; simp [addends]), add_zero]
  · intro b r own hat y h1 h2 hb
    exact absurd hb ((h y h1 h2).1 b ⟨r, own, hat⟩)

/-- a barrier -/
theorem inv_bar {S : Sys} {D : Nat × Int → Prop} {P : Prog} {M : Nat → Mems} {acts : Nat → Nat → List Act} (hm : Means S.npes D P M acts)
    {K : Nat} {x : X} (h : Inv S D M acts K x) {p : Nat} {g' : G}
    (hn : P.next p (x.g.arr p) (x.pos p) (x.g.mem p) = none) (s : Step S x.g (.enter p) g') :
    ∃ K', Inv S D M acts K' ⟨g', Function.update x.pos p 0⟩ := by
  obtain ⟨hf, harr, hbusy, hlv⟩ := enter_free s
  have hK := free_phase h hf
  rw [hK, next_ok hm h hf] at hn
  have hge := List.getElem?_eq_none_iff.mp hn
  have hle := h.len p hf.1 hK
  have hpos : x.pos p = (acts K p).length := by omega
  have gi' := gi_step h.gi s
  have ap : g'.arr p = K + 1 := by rw [harr, Function.update_self, hK]
  have aq : ∀ q, q ≠ p → g'.arr q = x.g.arr q := fun q hq => by rw [harr, Function.update_of_ne hq]
  have hdone : ∀ q, done K ⟨g', Function.update x.pos p 0⟩ (acts K) q = done K x (acts K) q := by
    intro q
    unfold done
    dsimp only
    by_cases e1 : q = p
    · subst e1; rw [ap, if_neg (by omega), if_pos hK, hpos]
    · rw [aq q e1, Function.update_of_ne e1]
  have hdone' := funext hdone
  have hone : ∀ q < S.npes, g'.arr q ≤ g'.lv q + 1 := by
    intro q hq
    rw [hlv]
    by_cases e1 : q = p
    · subst e1; rw [ap, ← hf.2.1, hK]
    · rw [aq q e1]; exact h.one q hq
  have hpos0 : ∀ q < S.npes, g'.arr q ≠ g'.lv q → Function.update x.pos p 0 q = 0 := by
    intro q hq hne
    by_cases e1 : q = p
    · subst e1; rw [Function.update_self]
    · rw [Function.update_of_ne e1]
      rw [aq q e1, hlv] at hne
      exact h.pos0 q hq hne
  have hword : ∀ t w ty, Counter S.npes (acts K) t w ty → WordOk S K g' (M K) (acts K) (done K x (acts K)) t w ty := by
    rintro t w ty ⟨q, hq, v, hv⟩
    refine word_keep s ((hm K).words q hq t w ty v hv).1 (h.word t w ty ⟨q, hq, v, hv⟩) (fun _ _ _ hc => hc) rfl (fun _ _ => Nat.le_refl _) ?_
    intro b r own hat hcv hr hk
    refine ⟨?_, fun j h => h⟩
    by_cases e1 : r = p
    · exfalso
      subst e1
      rcases hat with ⟨z, hz, e2, _⟩ | ⟨_, hz⟩
      · have h1 := gi'.cov r _ (gi'.fly r z hz) (hcv _ e2).1
        rw [(hcv _ e2).2, ap] at h1
        omega
      · rw [hbusy] at hz; cases hz
    · rw [aq r e1]; exact hk
  have hbyte : ∀ b, D b → ¬ InCounter S.npes (acts K) b → ByteOk S K g' (M K) (acts K) (done K x (acts K)) b := by
    intro b hD hcn
    refine byte_keep s (h.byte b hD hcn) (fun hc => hc) (fun v q j a own src F k' hk' hc => hc) (fun v hv => hv) (fun _ _ => Nat.le_refl _) ?_
    intro v q j a own src F
    by_cases e1 : q = p
    · subst e1
      right
      refine ⟨fun _ => hbusy, fun pd e2 y hy e3 => ?_⟩
      have h1 := gi'.cov q _ (gi'.fly q y hy)
      rw [e3] at h1
      have h2 := h1 (F.osome pd e2).2.1
      rw [(F.osome pd e2).2.2, ap] at h2
      omega
    · left
      exact ⟨by rw [aq q e1]; exact F.hk, F.oquiet⟩
  have hlo : ∀ q < S.npes, K ≤ g'.arr q := by
    intro q hq
    by_cases e1 : q = p
    · subst e1; omega
    · rw [aq q e1]; exact h.lo q hq
  by_cases hmin : ∃ q < S.npes, g'.arr q = K
  · refine ⟨K, gi', hlo, hmin, hone, hpos0, ?_, ?_, ?_⟩
    · intro q hq e1
      dsimp only at e1 ⊢
      by_cases e2 : q = p
      · subst e2; omega
      · rw [Function.update_of_ne e2]; rw [aq q e2] at e1; exact h.len q hq e1
    · intro b hD
      rw [hdone']
      exact hbyte b hD
    · intro t w ty hcn
      rw [hdone']
      exact hword t w ty hcn
  · have hall : ∀ q < S.npes, g'.arr q = K + 1 := by
      intro q hq
      have h1 := hlo q hq
      have h2 : g'.arr q ≠ K := fun e => hmin ⟨q, hq, e⟩
      have h3 := hone q hq
      have h4 := h.gi.lv q hq p hf.1
      rw [hlv] at h3
      omega
    have hz : ∀ q < S.npes, Function.update x.pos p 0 q = 0 := by
      intro q hq
      refine hpos0 q hq ?_
      have h1 := hall q hq
      have h4 := h.gi.lv q hq p hf.1
      rw [hlv]
      omega
    have hcl : ∀ q < S.npes, done K x (acts K) q = (acts K q).length := by
      intro q hq
      rw [← hdone q]
      unfold done
      dsimp only
      rw [hall q hq, if_neg (by omega)]
    have hend : ∀ b, D b → NoWriter g' b ∧ g'.mem b.1 b.2 = M (K + 1) b.1 b.2 := by
      intro b hD
      by_cases hcn : InCounter S.npes (acts K) b
      · obtain ⟨t, w, ty, ⟨q, hq, v, hv⟩, h1, h2, h3⟩ := hcn
        obtain ⟨b1, b2⟩ := b
        dsimp only at h1 h2 h3 ⊢
        subst h1
        have W := hword b1 w ty ⟨q, hq, v, hv⟩
        have hpos := bytes_pos ty
        have hno : ∀ y, w ≤ y → y < w + ty.bytes → NoWriter g' (b1, y) := by
          rintro y hy1 hy2 c ⟨r, own, hat⟩ hcw
          obtain ⟨hr, hk, _⟩ := W.by_ c r own hat y hy1 hy2 hcw
          rw [hall r hr] at hk
          omega
        refine ⟨hno b2 h2 h3, wordAt_inj (ty := ty) (a := w) ?_ h2 h3⟩
        have hs := W.sum
        rw [total_zero (hno w (le_refl _) (by omega)), add_zero] at hs
        rw [hs, (hm K).counts q hq b1 w ty v hv]
        congr 1
        refine Finset.sum_congr rfl fun r hr => ?_
        rw [hcl r (Finset.mem_range.mp hr), List.take_length]
      · obtain ⟨v, hv, hb⟩ := hbyte b hD hcn
        have hnw : NoWriter g' b ∧ g'.mem b.1 b.2 = v := by
          rcases hb with h1 | ⟨q, j, a, own, src, F⟩
          · exact h1
          · have h1 := F.hk
            rw [hall q F.hp] at h1
            omega
        refine ⟨hnw.1, hnw.2.trans ?_⟩
        rcases hv with ⟨q, hq, ⟨j, a, hj, ha, hw⟩, e1⟩ | ⟨hno, e1⟩
        · rw [e1, hcl q hq]
          refine ((hm K).result q hq b ⟨a, List.mem_of_getElem? ha, ?_, hw⟩).symm
          cases haa : a.isAdd with
          | false => rfl
          | true => exact absurd (in_counter hq (List.mem_of_getElem? ha) haa hw) hcn
        · rw [e1]
          refine ((hm K).rest b hD fun q hq a ha hw => hno q hq ?_).symm
          obtain ⟨j, hj⟩ := List.getElem?_of_mem ha
          exact ⟨j, a, by rw [hcl q hq]; exact (List.getElem?_eq_some_iff.mp hj).1, hj, hw⟩
    have hd0 : ∀ q < S.npes, done (K + 1) ⟨g', Function.update x.pos p 0⟩ (acts (K + 1)) q = 0 := by
      intro q hq
      unfold done
      dsimp only
      rw [hall q hq, if_pos rfl, hz q hq]
    refine ⟨K + 1, gi', fun q hq => by dsimp only; rw [hall q hq], ⟨p, hf.1, ap⟩, hone, hpos0, ?_, ?_, ?_⟩
    · intro q hq _
      dsimp only
      rw [hz q hq]
      exact Nat.zero_le _
    · intro b hD _
      refine ⟨_, Or.inr ⟨?_, rfl⟩, Or.inl (hend b hD)⟩
      rintro q hq ⟨j, a, hj, _⟩
      rw [hd0 q hq] at hj
      omega
    · rintro t w ty ⟨q, hq, v, hv⟩
      exact word_start (fun y h1 h2 => hend (t, y) ((hm (K + 1)).inside q hq _ hv (t, y) (Or.inl ⟨rfl, h1, h2⟩))) hd0

/-- every execution of the program keeps the invariant -/
theorem inv_run {S : Sys} {D : Nat × Int → Prop} {P : Prog} {M : Nat → Mems} {acts : Nat → Nat → List Act} (hm : Means S.npes D P M acts)
    (h0 : 0 < S.npes) {l : List Ev} {x : X} (r : XRun S D P (start (M 0)) l x) : ∃ K, Inv S D M acts K x := by
  generalize hy : start (M 0) = y at r
  induction r with
  | nil =>
    subst hy
    refine ⟨0, gi_init S _, fun _ _ => Nat.zero_le _, ⟨0, h0, rfl⟩, fun _ _ => Nat.zero_le _, fun _ _ _ => rfl, fun _ _ _ => Nat.zero_le _, ?_, ?_⟩
    · intro b _ _
      refine ⟨M 0 b.1 b.2, Or.inr ⟨?_, rfl⟩, Or.inl ⟨noWriter_init _ _, rfl⟩⟩
      rintro p _ ⟨j, a, hj, _⟩
      unfold done at hj
      exact absurd hj (Nat.not_lt_zero j)
    · rintro t w ty ⟨q, hq, v, hv⟩
      exact word_start (fun y _ _ => ⟨noWriter_init _ _, rfl⟩) (fun _ _ => rfl)
  | snoc r s ih =>
    obtain ⟨K, h⟩ := ih
    cases s with
    | act p a hn hd s => exact ⟨K, inv_act hm h hn hd s⟩
    | bar p hn s => exact inv_bar hm h hn s
    | other hb hw s => exact ⟨K, inv_other hm h hb hw s⟩

end Verif.Bsp
